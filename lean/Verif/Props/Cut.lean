import Verif.Proofs.Cut
import Verif.Props.Writes
import Verif.Props.First

/-!
# What is returned beside an error (C66)

`Append` returns what has been written so far beside an error. It is what `Cut` says, byte for byte.
-/

namespace Jettison.Props
open Jettison Jettison.Spec Jettison.Model Jettison.Proofs

variable {W : World} {H : Heap} {M : MethV} {o : EncOpts} {t : TId} {ca q : Bool} {i : Instr} {p : Loc} {v : Val} {e : Err}

/-- The claim for depth `n`. -/
def CutUpto (W : World) (H : Heap) (M : MethV) (o : EncOpts) (n : Nat) : Prop :=
  ∀ t ca q i p v path e b, Stands W H t ca q i p v → TimesFine W t v → (q = true → BasicOrPtr W.E t) →
    run W H o n path i p [] = .fail e b → Cut W M o t ca q v e b

theorem faultReady_of (D : WriteReady W H M) (hstd : StdText W.E) : FaultReady W H M :=
  ⟨D.ready, D.fmt, D.honestV, D.order, D.valid, hstd⟩

/-- A value of which nothing else is encoded is at fault itself. -/
theorem fault_leaf {b : Bytes} (hJ : Judged W M o t ca v (.fail e b)) (hn : ∀ t' ca' v', ¬ Encodes1 W o t ca v t' ca' v') : Fault W M o t ca v e := by
  obtain ⟨t', ca', v', h1, h2⟩ := hJ.fail e b rfl
  cases h1 with
  | refl => exact h2
  | step h => exact absurd h (hn _ _ _)

/-! ## Structs -/

/-- What is written of a struct with a field that fails. -/
theorem struct_fail (R : Ready W H M) (hl : FormatContract W.fmt) (hh : HonestAppend H.meth)
    (S : Stands W H t ca q i p v) (hb : ByKind W.E t ca) (hs : IsStruct W.E t) {n : Nat} {path : Path} {out : Bytes}
    (h : run W H o (n + 1) path i p [] = .fail e out) :
    ∃ (l pre : List MField) (m : MField) (post : List MField) (ms : List (MField × Bytes)), MembersOf W.U.isLetter W.U.isDigit W.E t l ∧
      l = pre ++ m :: post ∧ (ms.map Prod.fst).Sublist pre ∧ (∀ m' ∈ pre, m' ∈ ms.map Prod.fst ↔ ¬ LeftOut o v m') ∧ ¬ LeftOut o v m ∧
      (∀ m' b, (m', b) ∈ ms → ∃ x j p' q' path', FieldAt v m'.path x ∧ Stands W H m'.decl.typ ca q' j p' x ∧
        (q' = true ↔ HasOpt m'.decl (b! "string") ∧ BasicOrPtr W.E m'.decl.typ) ∧ run W H o n path' j p' [] = .ok b) ∧
      ∃ c : Bytes, (∃ x j p' q' path', FieldAt v m.path x ∧ Stands W H m.decl.typ ca q' j p' x ∧
        (q' = true ↔ HasOpt m.decl (b! "string") ∧ BasicOrPtr W.E m.decl.typ) ∧ run W H o n path' j p' [] = .fail e c) ∧
      ∃ (kept : List (MField × Bytes)) (lead : Bytes), kept.Sublist ms ∧ (∀ x ∈ ms, x ∈ kept ↔ ¬ NullDropped W.E x.1 x.2) ∧
        ((lead = [] ∧ ∀ x, ms.head? = some x → ¬ NullDropped W.E x.1 x.2) ∨ (lead = b! "," ∧ ∃ x, ms.head? = some x ∧ NullDropped W.E x.1 x.2)) ∧
        out = b! "{" ++ lead ++ commas ((kept.map fun x => fieldKey o x.1.name ++ x.2) ++ [fieldKey o m.name ++ c]) := by
  obtain ⟨fs, hk⟩ := hs
  obtain ⟨k, hmade⟩ := S.made
  have hi := byKind_struct hb hk hmade
  subst hi
  simp only [run, exec] at h
  split at h
  · cases h
  · split at h
    · simp at h
    · next flds hflds =>
      obtain ⟨fl, hsf, hmap, hok⟩ := structFieldsInstr_ok hflds
      obtain ⟨hfld, hnew⟩ := mapM_fld hmap
      obtain ⟨g, hmem, hbeh⟩ := members_of R.tab R.sort (R.apart t) hsf
      rw [structLoop_G] at h
      have hpre : ∀ path i p, Pre (run W H o n path i p) := pre_run (contract_long hl) hh n
      obtain ⟨pre, f, post, es, fp, c, path', hsplit, hem, hgf, hfail, hout⟩ := structG_fail o (fieldLoc H.mem o · p) hpre path flds 0 true [] out h
      obtain ⟨hfst, hall⟩ := emits_fields hem
      have hst : IsStruct W.E t := ⟨fs, hk⟩
      have hroute := structFields_route R.tab (R.apart t) R.sort hsf
      have hspec : ∀ f ∈ flds, (fieldLoc H.mem o f p = some none ∧ LeftOut o v (g f.fld)) ∨ ∃ l' x, fieldLoc H.mem o f p = some (some l') ∧
          ¬ LeftOut o v (g f.fld) ∧ FieldAt v (g f.fld).path x ∧ Repr W.E H.mem (g f.fld).decl.typ l' x ∧ (InHeap p → InHeap l') := by
        intro f hf
        have hfl : f.fld ∈ fl := by rw [← hfld]; exact List.mem_map_of_mem hf
        obtain ⟨hb', u, i, hp⟩ := hbeh f.fld hfl
        exact fieldLoc_spec R S.holds hst hb' (hnew f hf) (hroute _ hfl) hp
      let tr : FInstr × Loc × Bytes → MField × Bytes := fun e => (g e.1.fld, e.2.2)
      have htr : (es.map tr).map Prod.fst = (es.map Prod.fst).map (fun f => g f.fld) := by
        simp [tr, Function.comp_def]
      have hin : ∀ f' ∈ pre, f' ∈ flds := fun f' h => by rw [hsplit]; simp [h]
      have hf0 : f ∈ flds := by rw [hsplit]; simp
      have hlmap : fl.map g = pre.map (fun f => g f.fld) ++ g f.fld :: post.map (fun f => g f.fld) := by
        rw [← hfld, hsplit]; simp [Function.comp_def]
      have hdrop : ∀ e ∈ es, dropNull e = true ↔ NullDropped W.E (g e.1.fld) e.2.2 := by
        intro e he
        obtain ⟨hef, -, -⟩ := hall e he
        obtain ⟨ftyp, h1, h2, h3, h4, -, -⟩ := newFieldInstr_inv (hnew e.1 (hin _ hef))
        have hfl : e.1.fld ∈ fl := by rw [← hfld]; exact List.mem_map_of_mem (hin _ hef)
        obtain ⟨hb', u, i, hp⟩ := hbeh _ hfl
        have hty : (g e.1.fld).decl.typ = ftyp := by have := promoted_type hst hp; rw [h1] at this; simpa using this.symm
        simp only [dropNull, NullDropped, Bool.and_eq_true, h4, ← hb'.omitNil, HasMarshalJSON, hty, nullEnd_iff, Bool.or_eq_true, and_assoc]
      have stand : ∀ f' ∈ flds, ∀ l', fieldLoc H.mem o f' p = some (some l') → ∃ x q', FieldAt v (g f'.fld).path x ∧
          Stands W H (g f'.fld).decl.typ ca q' f'.instr l' x ∧ (q' = true ↔ HasOpt (g f'.fld).decl (b! "string") ∧ BasicOrPtr W.E (g f'.fld).decl.typ) := by
        intro f' hf' l' hget
        have hfl : f'.fld ∈ fl := by rw [← hfld]; exact List.mem_map_of_mem hf'
        obtain ⟨hb', u, i, hp⟩ := hbeh _ hfl
        obtain ⟨ftyp, h1, h2, h3, h4, h5, h6⟩ := newFieldInstr_inv (hnew f' hf')
        have hty : (g f'.fld).decl.typ = ftyp := by have := promoted_type hst hp; rw [h1] at this; simpa using this.symm
        rcases hspec f' hf' with ⟨e', _⟩ | ⟨l', x, e', _, hat, hrep, hheap⟩
        · rw [e'] at hget; simp at hget
        · rw [e'] at hget
          simp only [Option.some.injEq] at hget
          subst hget
          refine ⟨x, f'.fld.quoted && isBasicK (W.E (derefOnce W.E ftyp)).kind, hat, ⟨⟨_, by rw [hty]; exact h6⟩, hrep, ?_⟩, ?_⟩
          · intro hca
            right
            have : InHeap p := by
              rcases S.addr hca with hp' | hp'
              · simp only [HasFields] at hk; rw [hk] at hp'; simp [isPtrK] at hp'
              · exact hp'
            exact hheap this
          · rw [Bool.and_eq_true, hb'.quoted, ← hty]
            exact ⟨fun h => h.1, fun h => ⟨h, basicOrPtr_deref h.2⟩⟩
      refine ⟨fl.map g, pre.map (fun f => g f.fld), g f.fld, post.map (fun f => g f.fld), es.map tr, hmem, hlmap, ?_, ?_, ?_, ?_, c, ?_, ?_⟩
      · rw [htr, hfst]
        exact List.Sublist.map _ List.filter_sublist
      · intro m hm
        rw [htr, hfst, List.mem_map]
        rw [List.mem_map] at hm
        constructor
        · rintro ⟨f, hf, rfl⟩
          obtain ⟨hf1, hf2⟩ := List.mem_filter.mp hf
          rcases hspec f (hin _ hf1) with ⟨e, _⟩ | ⟨_, _, _, hno, _⟩
          · rw [e] at hf2; simp at hf2
          · exact hno
        · intro hno
          obtain ⟨f, hf, rfl⟩ := hm
          refine ⟨f, List.mem_filter.mpr ⟨hf, ?_⟩, rfl⟩
          rcases hspec f (hin _ hf) with ⟨_, hlo⟩ | ⟨_, _, e, _⟩
          · exact absurd hlo hno
          · rw [e]
      · rcases hspec f hf0 with ⟨z, -⟩ | ⟨_, _, _, hno, _⟩
        · rw [z] at hgf; simp at hgf
        · exact hno
      · intro m b hmb
        obtain ⟨e, he, heq⟩ := List.mem_map.mp hmb
        simp only [tr, Prod.mk.injEq] at heq
        obtain ⟨rfl, rfl⟩ := heq
        obtain ⟨hef, hget, j, htxt⟩ := hall e he
        obtain ⟨x, q', z1, z2, z3⟩ := stand e.1 (hin _ hef) _ hget
        exact ⟨x, _, _, q', _, z1, z2, z3, htxt⟩
      · obtain ⟨x, q', z1, z2, z3⟩ := stand f hf0 _ hgf
        exact ⟨x, _, _, q', _, z1, z2, z3, hfail⟩
      · obtain ⟨lead, hc1, hc2⟩ := objText_lead o (es ++ [(plainF f, fp, c)])
        have hpl : (es ++ [(plainF f, fp, c)]).filter (!dropNull ·) = es.filter (!dropNull ·) ++ [(plainF f, fp, c)] := by
          rw [List.filter_append]; simp [dropNull, plainF]
        refine ⟨(es.filter (!dropNull ·)).map tr, lead, List.Sublist.map _ List.filter_sublist, ?_, ?_, ?_⟩
        · intro x hx
          obtain ⟨e, he, rfl⟩ := List.mem_map.mp hx
          rw [List.mem_map]
          constructor
          · rintro ⟨e', he', heq⟩
            obtain ⟨h1, h2⟩ := List.mem_filter.mp he'
            rw [← heq]
            intro hd
            rw [(hdrop e' h1).mpr hd] at h2
            simp at h2
          · intro hd
            refine ⟨e, List.mem_filter.mpr ⟨he, ?_⟩, rfl⟩
            cases hde : dropNull e with
            | false => rfl
            | true => exact absurd ((hdrop e he).mp hde) hd
        · rw [hpl] at hc2
          rcases hc2 with ⟨rfl, hc2⟩ | ⟨rfl, hc2, e, hc3, hc4⟩
          · refine .inl ⟨rfl, fun x hx hd => ?_⟩
            rw [List.head?_map, Option.map_eq_some_iff] at hx
            obtain ⟨e, he, rfl⟩ := hx
            have := hc2 e (by rw [List.head?_append, he]; rfl) ((hdrop e (List.mem_of_mem_head? he)).mpr hd)
            simp at this
          · cases es with
            | nil => simp at hc3; subst hc3; simp [dropNull, plainF] at hc4
            | cons e' es =>
              simp at hc3; subst hc3
              exact .inr ⟨rfl, tr e', rfl, (hdrop e' (by simp)).mp hc4⟩
        · simp only [if_true] at hout
          rw [hc1, hpl, List.nil_append] at hout
          have hout := List.append_cancel_right hout
          rw [hout]
          simp only [List.map_map, List.map_append, List.map_cons, List.map_nil]
          congr 2
          congr 1
          · refine List.map_congr_left fun e he => ?_
            have hef := (hall e (List.mem_filter.mp he).1).1
            have hfl : e.1.fld ∈ fl := by rw [← hfld]; exact List.mem_map_of_mem (hin _ hef)
            simp only [Function.comp, tr, memberText, (hbeh _ hfl).1.name]
          · have hfl : f.fld ∈ fl := by rw [← hfld]; exact List.mem_map_of_mem hf0
            simp only [memberText, plainF, (hbeh _ hfl).1.name]

theorem cut_struct (D : WriteReady W H M) {n : Nat} (ih : CutUpto W H M o n) (S : Stands W H t ca false i p v) (hb : ByKind W.E t ca)
    (hs : IsStruct W.E t) (hf : TimesFine W t v) {path : Path} {b : Bytes} (h : run W H o (n + 1) path i p [] = .fail e b) : Cut W M o t ca false v e b := by
  obtain ⟨l, pre, m0, post, ms, hl, hsplit, hsub, hout, hno, hms, c, ⟨x0, j0, p0, q0, path0, a1, a2, a3, a4⟩, kept, lead, hks, hkm, hc, rfl⟩ :=
    struct_fail D.ready D.fmt D.honest S hb hs h
  have hsubl : (ms.map Prod.fst ++ [m0]).Sublist l := by
    rw [hsplit]; exact hsub.append (List.Sublist.cons_cons _ (List.nil_sublist _))
  have hch : ∀ m, m ∈ ms.map Prod.fst ∨ m = m0 → ChosenField W.U.isLetter W.U.isDigit W.E t m := fun m hm =>
    (hl.2 m).mp (hsubl.subset (by simpa using hm))
  have hnodup0 : (ms.map Prod.fst ++ [m0]).Nodup := by
    refine (hl.1.sublist hsubl).imp ?_
    rintro a b hab rfl
    exact pathLt_asymm hab hab
  have hnodup := (List.nodup_append.mp hnodup0).1
  have hm0 : m0 ∉ ms.map Prod.fst := fun h => (List.nodup_append.mp hnodup0).2.2 _ h _ (by simp) rfl
  have huniq : ∀ m a c, (m, a) ∈ ms → (m, c) ∈ ms → a = c := by
    intro m a c ha hc
    exact congrArg Prod.snd (map_nodup_inj hnodup ha hc rfl)
  have fine : ∀ m x, (m ∈ ms.map Prod.fst ∨ m = m0) → FieldAt v m.path x → TimesFine W m.decl.typ x := by
    intro m x hm h1
    obtain ⟨_, _, _, _, _, hpath, hprom, -⟩ := hch _ hm
    have hw := fieldAt_type D.ready.types h1 hs (repr_hasType S.holds) (promoted_type hs hprom)
    exact fun t'' v'' hw' => hf _ _ (within_trans hw.2 hw')
  have hdoc : ∀ m, ∃ r : Bytes × Bool × Val × Bytes, (m ∈ ms.map Prod.fst → (m, r.1) ∈ ms ∧ FieldAt v m.path r.2.2.1 ∧
      (r.2.1 = true ↔ HasOpt m.decl (b! "string") ∧ BasicOrPtr W.E m.decl.typ) ∧ Writes W M o m.decl.typ ca r.2.1 r.2.2.1 r.1) ∧
      (m = m0 → r.2.1 = q0 ∧ r.2.2.1 = x0) ∧
      NamedAs o m.name r.2.2.2 ∧ fieldKey o m.name = b! "\"" ++ r.2.2.2 ++ b! "\":" := by
    intro m
    obtain ⟨k, k1, k2⟩ := fieldKey_named o m.name
    by_cases hm : m ∈ ms.map Prod.fst
    · obtain ⟨⟨m', a⟩, hma, rfl⟩ := List.mem_map.mp hm
      obtain ⟨x, j, p', q', path', h1, h2, h3, h4⟩ := hms _ _ hma
      exact ⟨(a, q', x, k), fun _ => ⟨hma, h1, h3, wr_upto D n _ _ _ _ _ _ _ _ h2 (fine _ _ (.inl hm) h1) (fun hq => (h3.mp hq).2) h4⟩,
        fun h => absurd (h ▸ hm) hm0, k1, k2⟩
    · exact ⟨([], q0, x0, k), fun h => absurd h hm, fun _ => ⟨rfl, rfl⟩, k1, k2⟩
  obtain ⟨r, hr⟩ := Classical.skolem.mp hdoc
  have hkeep : ∀ m ∈ ms.map Prod.fst, m ∈ kept.map Prod.fst ↔ ¬ NullDropped W.E m (r m).1 := by
    intro m hm
    have h1 := ((hr m).1 hm).1
    rw [← hkm _ h1]
    constructor
    · intro h2
      obtain ⟨⟨m', a⟩, hma, rfl⟩ := List.mem_map.mp h2
      rw [← huniq m' a _ (hks.subset hma) h1]
      exact hma
    · exact fun h2 => List.mem_map_of_mem (f := Prod.fst) h2
  have hlead : Lead (ms.map Prod.fst ++ [m0]) (kept.map Prod.fst ++ [m0]) lead := by
    cases hm1 : ms with
    | nil =>
      subst hm1
      have : kept = [] := List.sublist_nil.mp hks
      subst this
      rcases hc with ⟨rfl, -⟩ | ⟨-, x, h, -⟩
      · exact .none (.inr rfl)
      · cases h
    | cons x ms' =>
      subst hm1
      have hx := hkm x List.mem_cons_self
      rcases hc with ⟨rfl, h1⟩ | ⟨rfl, y, h2, h3⟩
      · have hm := List.mem_map_of_mem (f := Prod.fst) (hx.mpr (h1 x rfl))
        have hh := sublist_head (hks.map Prod.fst) hnodup hm
        refine .none (.inr ?_)
        rw [List.head?_append, List.head?_append, hh]; rfl
      · simp only [List.head?_cons, Option.some.injEq] at h2
        subst h2
        refine .comma (by simp) fun he => ?_
        simp only [List.map_cons, List.cons_append, List.head?_cons] at he
        have hm : x.1 ∈ kept.map Prod.fst ++ [m0] := List.mem_of_mem_head? he.symm
        rcases List.mem_append.mp hm with hm | hm
        · have h4 := (hkeep x.1 (by simp)).mp hm
          have h5 := ((hr x.1).1 (by simp)).1
          rw [huniq x.1 _ x.2 h5 List.mem_cons_self] at h4
          exact h4 h3
        · rw [List.mem_singleton] at hm
          exact hm0 (by rw [← hm]; simp)
  have htext : kept.map (fun x => fieldKey o x.1.name ++ x.2) =
      (kept.map Prod.fst).map fun m => b! "\"" ++ (r m).2.2.2 ++ b! "\":" ++ (r m).1 := by
    rw [List.map_map]
    refine List.map_congr_left fun x hx => ?_
    have hx' := hks.subset hx
    have h1 := (hr x.1).1 (List.mem_map_of_mem (f := Prod.fst) hx')
    rw [Function.comp, (hr x.1).2.2.2, huniq x.1 x.2 _ hx' h1.1]
  obtain ⟨r1, r2⟩ := (hr m0).2.1 rfl
  rw [htext, (hr m0).2.2.2]
  refine .field (q' := fun m => (r m).2.1) (x := fun m => (r m).2.2.1) (b := fun m => (r m).1) (key := fun m => (r m).2.2.2) hb hs hl hsplit hsub hout hno
    ?_ ?_ (fun m hm => ((hr m).1 hm).2.2.2) (hks.map Prod.fst) hkeep (fun m _ => (hr m).2.2.1) hlead ?_
  · rintro m (hm | rfl)
    · exact ((hr m).1 hm).2.1
    · rw [r2]; exact a1
  · rintro m (hm | rfl)
    · exact ((hr m).1 hm).2.2.1
    · rw [r1]; exact a3
  · rw [r1, r2]
    exact ih _ _ _ _ _ _ _ _ _ a2 (fine _ _ (.inr rfl) a1) (fun hq => (a3.mp hq).2) a4

/-! ## Maps -/

/-- How the value of an interface fails. -/
theorem held_fail (R : Ready W H M) {x : Eface} {y : Val} {n : Nat} {path : Path} {b : Bytes} (hx : ReprE W.E H.mem x y)
    (hb : appendJSON W (run W H o n) path x [] = .fail e b) : ∃ d z w, x = some (d, w) ∧ y = .iface d z ∧
      ∃ j a path' k, Stands W H d (isPtrK (W.E d).kind) false j a z ∧ k ≤ n ∧ run W H o k path' j a [] = .fail e b := by
  have key : ∀ d w z, ReprE W.E H.mem (some (d, w)) (.iface d z) → x = some (d, w) →
      ∃ j a path' k, Stands W H d (isPtrK (W.E d).kind) false j a z ∧ k ≤ n ∧ run W H o k path' j a [] = .fail e b := by
    intro d w z hx hxe
    rw [hxe] at hb
    rcases entry (o := o) R hx n with ⟨-, h⟩ | ⟨j, p', k, h1, h2, h3⟩
    · rw [h] at hb; cases hb
    · exact ⟨j, p', path, k, h1, h2, by rw [← h3]; exact hb⟩
  cases hx with
  | nil => simp [appendJSON] at hb
  | @direct d w z hd hr => exact ⟨d, z, w, rfl, rfl, key d w z (.direct hd hr) rfl⟩
  | @indirect d w z hd hr => exact ⟨d, z, w, rfl, rfl, key d w z (.indirect hd hr) rfl⟩

/-- How a key of a map fails. -/
theorem cut_key (D : WriteReady W H M) {n : Nat} (ih : ∀ m, m ≤ n → CutUpto W H M o m) {kt u : TId} {k : Nat} {ki : Instr}
    (hki : (if isStringK (W.E kt).kind then some .string else newInstruction W.E k kt false false) = some ki) {a : Addr} {x y : Val}
    (hr : Repr W.E H.mem kt (.heap a) x) (hf : TimesFine W kt x) {path : Path} {b : Bytes}
    (h : run W H o n path (wrapKey W.E kt ki) (.heap a) [] = .fail e b) : EntryCut W M o kt u (x, y) e b := by
  have R := D.ready
  by_cases hs : (W.E kt).kind = .string
  · have hi : wrapKey W.E kt ki = .string := by
      simp only [hs, isStringK, if_true, Option.some.injEq] at hki
      simp [wrapKey, hs, isStringK, isPtrK, ← hki]
    rw [hi] at h
    obtain ⟨s, rfl, hat⟩ := repr_str R.types hs hr
    cases n with
    | zero => cases h
    | succ n =>
      simp only [run, exec, readStr, hat, withRead] at h
      cases h
  · have hs' : isStringK (W.E kt).kind = false := by
      cases hk : (W.E kt).kind <;> simp_all [isStringK]
    rw [hs'] at hki
    simp only [Bool.false_eq_true, if_false] at hki
    have S : Stands W H kt false false ki (.heap a) x := ⟨⟨_, hki⟩, hr, fun h => nomatch h⟩
    cases ht : (W.E kt).meths.text with
    | false =>
      simp only [wrapKey, hs', ht, Bool.not_false, Bool.and_self, if_true, Bool.false_and, Bool.false_eq_true, if_false] at h
      cases n with
      | zero => cases h
      | succ n =>
        simp only [run, exec, List.nil_append] at h
        have hpre := pre_run (W := W) (H := H) (o := o) (contract_long D.fmt) D.honest n path ki (.heap a)
        cases hx : run W H o n path ki (.heap a) (b! "\"") with
        | fail e' d =>
          rw [hx] at h
          cases h
          obtain ⟨c, h1, rfl⟩ := pre_fails hpre hx
          exact .quoted hs ht (ih n (by omega) _ _ _ _ _ _ _ _ _ S hf (by simp) h1)
        | _ => rw [hx] at h; cases h
    | true =>
      cases hp : isPtrK (W.E kt).kind with
      | false =>
        simp only [wrapKey, hs', ht, hp, Bool.not_true, Bool.and_false, Bool.false_eq_true, if_false] at h
        refine .text hs ht (fun hp' => ?_) (ih n (Nat.le_refl n) _ _ _ _ _ _ _ _ _ S hf (by simp) h)
        obtain ⟨e, he⟩ := hp'
        rw [he] at hp; cases hp
      | true =>
        simp only [wrapKey, hs', ht, hp, Bool.not_true, Bool.and_false, Bool.false_eq_true, if_false, Bool.and_self, if_true] at h
        obtain ⟨e, he⟩ := isPtr_of hp
        cases n with
        | zero => cases h
        | succ n =>
          rcases repr_ptr R.types he hr with ⟨rfl, hat⟩ | ⟨w, y, rfl, hat, hw, hy⟩
          · simp only [run, exec, readWord, hat, withRead, if_true] at h
            cases h
          · simp only [run, exec, readWord, hat, withRead, hw, if_false] at h
            exact .text hs ht (by simp) (ih n (by omega) _ _ _ _ _ _ _ _ _ S hf (by simp) h)

/-- How a key of a `sync.Map` fails. -/
theorem cut_skey (D : WriteReady W H M) {n : Nat} (ih : ∀ m, m ≤ n → CutUpto W H M o m) {x : Eface} {y z : Val} {path : Path}
    {b : Bytes} (hx : ReprE W.E H.mem x y) (hf : ∀ d x, y = .iface d x → TimesFine W d x)
    (hb : appendSyncMapKey W H o (run W H o n) path x [] = .fail e b) : SyncEntryCut W M o (y, z) e b := by
  have R := D.ready
  have hpre := pre_run (W := W) (H := H) (o := o) (contract_long D.fmt) D.honest n
  cases x with
  | none =>
    cases hx
    simp only [appendSyncMapKey] at hb
    cases hb
    exact .nilKey rfl
  | some x =>
    obtain ⟨kt, w⟩ := x
    obtain ⟨y, rfl⟩ : ∃ y', y = .iface kt y' := by cases hx <;> exact ⟨_, rfl⟩
    simp only [appendSyncMapKey] at hb
    split at hb
    · next hq =>
      cases hb
      refine .badKey rfl fun hk => ?_
      have := (mapKeyOk_iff W.E kt).mpr hk
      simp only [mapKeyOk] at this
      revert this hq
      cases isStringK (W.E kt).kind <;> cases isInteger (W.E kt).kind <;> cases (W.E kt).meths.text <;> simp
    · next hq =>
      split at hb
      · next hs =>
        have hs : (W.E kt).kind = .string := by
          cases hk : (W.E kt).kind <;> simp_all [isStringK]
        cases hx with
        | direct hd hr => cases hd <;> simp_all
        | indirect hd hr =>
          obtain ⟨s, rfl, hat⟩ := repr_str R.types hs hr
          simp only [readStr, hat, withRead] at hb
          cases hb
      · next hs =>
        have hs' : isStringK (W.E kt).kind = false := by simpa using hs
        have hns : (W.E kt).kind ≠ .string := by
          intro h; rw [h] at hs'; cases hs'
        cases ht : (W.E kt).meths.text with
        | true =>
          simp only [hs', ht, Bool.not_true, Bool.and_false, Bool.false_eq_true, if_false] at hb
          cases hz : appendJSON W (run W H o n) path (some (kt, w)) [] with
          | fail e' z =>
            rw [hz] at hb; cases hb
            obtain ⟨d, z', w', he, hy, j, a, path', k, h1, h2, h3⟩ := held_fail R hx hz
            cases he; cases hy
            exact .text rfl hns ht (ih k h2 _ _ _ _ _ _ _ _ _ h1 (hf _ _ rfl) (by simp) h3)
          | _ => rw [hz] at hb; cases hb
        | false =>
          simp only [hs', ht, Bool.not_false, Bool.and_self, if_true, List.nil_append] at hb
          cases hz : appendJSON W (run W H o n) path (some (kt, w)) (b! "\"") with
          | fail e' z =>
            rw [hz] at hb; cases hb
            obtain ⟨c, h1, rfl⟩ := pre_fails (pre_appendJSON hpre _ _) hz
            obtain ⟨d, z', w', he, hy, j, a, path', k, h1, h2, h3⟩ := held_fail R hx h1
            cases he; cases hy
            obtain ⟨k', hk'⟩ : ∃ k', (W.E kt).kind = .int k' := by
              cases hk : (W.E kt).kind <;> simp_all [isStringK, isInteger]
            exact .quoted rfl hk' ht (ih k h2 _ _ _ _ _ _ _ _ _ h1 (hf _ _ rfl) (by simp) h3)
          | _ => rw [hz] at hb; cases hb

theorem cut_map (D : WriteReady W H M) {n : Nat} (ih : ∀ m, m ≤ n → CutUpto W H M o m) (S : Stands W H t ca false i p v) (hb : ByKind W.E t ca)
    {kt et : TId} (hk : (W.E t).kind = .map kt et) (hkey : KeyType W.E kt) (hf : TimesFine W t v) {path : Path} {b : Bytes}
    (h : run W H o (n + 1) path i p [] = .fail e b) : Cut W M o t ca false v e b := by
  have R := D.ready
  obtain ⟨k, hm⟩ := S.made
  obtain ⟨k', ki, vi, hki, hvi, rfl⟩ := byKind_map hb hk ((mapKeyOk_iff _ _).mpr hkey) hm
  rcases repr_map R.types hk S.holds with ⟨rfl, hat⟩ | ⟨a, es, kvs, rfl, hat, ha, hmem, hlen, hks, hvs⟩
  · simp only [run, exec, encodeMap, readWord, hat, withRead] at h
    simp only [if_true] at h
    split at h <;> cases h
  simp only [run, exec, encodeMap, readWord, hat, withRead, ha, if_false, readMap, hmem] at h
  split at h
  · cases h
  · have hpre := pre_run (W := W) (H := H) (o := o) (contract_long D.fmt) D.honest n
    have hz : es = (es.zip kvs).map Prod.fst := by rw [List.map_fst_zip (by omega)]
    have hz2 : kvs = (es.zip kvs).map Prod.snd := by rw [List.map_snd_zip (by omega)]
    rw [hz, visit_map, encodeEntries_map] at h
    have hmv := visit_perm D.order path (es.zip kvs)
    have hin : ∀ x ∈ W.visit path (es.zip kvs), Repr W.E H.mem kt (.heap x.1.1) x.2.1 ∧ Repr W.E H.mem et (.heap x.1.2) x.2.2 ∧ x.2 ∈ kvs := by
      intro x hx
      have hx := hmv.mem_iff.mp hx
      obtain ⟨j, hj⟩ := List.mem_iff_getElem?.mp hx
      rw [List.getElem?_zip_eq_some] at hj
      exact ⟨hks j _ _ hj.1 hj.2, hvs j _ _ hj.1 hj.2, List.mem_of_getElem? hj.2⟩
    have hKT : ∀ x ∈ W.visit path (es.zip kvs), ∀ path' b, run W H o n path' (wrapKey W.E kt ki) (.heap x.1.1) [] = .ok b → KeyWrites W M o kt x.2.1 b := by
      intro x hx path' b hb'
      obtain ⟨h1, h2, h3⟩ := hin x hx
      exact wr_key (fun m _ => wr_upto D m) (timesFine_part hf (.key hk h3)) (keyText_of R D.fmt D.honest hki h1 hb')
    have hVT : ∀ x ∈ W.visit path (es.zip kvs), Stands W H et false false vi (.heap x.1.2) x.2.2 ∧ TimesFine W et x.2.2 := by
      intro x hx
      obtain ⟨h1, h2, h3⟩ := hin x hx
      exact ⟨⟨⟨_, hvi⟩, h2, fun h => nomatch h⟩, timesFine_part hf (.elem hk h3)⟩
    have hEC : ∀ x ∈ W.visit path (es.zip kvs), ∀ c, EntryFail o (fun m x dst => run W H o n ((2 * m) :: path) (wrapKey W.E kt ki) (.heap x.1.1) dst)
        (fun m (x : (Addr × Addr) × (Val × Val)) dst => run W H o n ((2 * m + 1) :: path) vi (.heap x.1.2) dst) x e c → EntryCut W M o kt et x.2 e c := by
      rintro x hx c ⟨m, hm | ⟨kb, c', h1, h2, h3, rfl⟩⟩
      · exact cut_key D ih hki (hin x hx).1 (timesFine_part hf (.key hk (hin x hx).2.2)) hm
      · exact .elem (hKT x hx _ _ h1) h2 (ih n (Nat.le_refl n) _ _ _ _ _ _ _ _ _ (hVT x hx).1 (hVT x hx).2 (by simp) h3)
    rcases entries_fail (fun _ _ => hpre _ _ _) (fun _ _ => hpre _ _ _) h with ⟨hu, rfl, x, hx, c, hc⟩ | ⟨hu, pre, x, post, ms, c, h1, h2, h3, h4, rfl⟩
    · exact .sorted hb hk hkey hu (hin x hx).2.2 (hEC x hx c hc)
    · have hsub : ∀ y ∈ pre, y ∈ W.visit path (es.zip kvs) := fun y hy => by rw [h1]; simp [hy]
      refine .unsorted (pre := pre.map Prod.snd) (kv := x.2) (post := post.map Prod.snd) hb hk hkey hu ?_ (by simpa using h2) ?_ ?_ (hEC x (by rw [h1]; simp) c h4)
      · have := (hmv.map Prod.snd).symm
        rw [← hz2, h1] at this
        simpa using this
      · intro j y m hy hm
        rw [List.getElem?_map, Option.map_eq_some_iff] at hy
        obtain ⟨y', hy', rfl⟩ := hy
        obtain ⟨n', g1, g2⟩ := h3 j _ _ hy' hm
        exact hKT _ (hsub _ (List.mem_of_getElem? hy')) _ _ g1
      · intro j y m hy hm
        rw [List.getElem?_map, Option.map_eq_some_iff] at hy
        obtain ⟨y', hy', rfl⟩ := hy
        obtain ⟨n', g1, g2⟩ := h3 j _ _ hy' hm
        obtain ⟨s1, s2⟩ := hVT _ (hsub _ (List.mem_of_getElem? hy'))
        exact wr_upto D n _ _ _ _ _ _ _ _ s1 s2 (by simp) g2

theorem cut_smap (D : WriteReady W H M) {n : Nat} (ih : ∀ m, m ≤ n → CutUpto W H M o m) (S : Stands W H t ca q i p v)
    (hsp : (W.E t).special = some .syncMap) (hf : TimesFine W t v) {path : Path} {b : Bytes}
    (h : run W H o (n + 1) path i p [] = .fail e b) : Cut W M o t ca q v e b := by
  have R := D.ready
  obtain ⟨k, hm⟩ := S.made
  have := special_made hsp hm
  subst this
  obtain ⟨es, kvs, rfl, hat, hlen, hks, hvs⟩ := repr_smap R.types hsp S.holds
  simp only [run, exec, encodeSpecial, encodeSyncMap, readSyncMap, hat, withRead] at h
  have hpre := pre_run (W := W) (H := H) (o := o) (contract_long D.fmt) D.honest n
  have hz : es = (es.zip kvs).map Prod.fst := by rw [List.map_fst_zip (by omega)]
  have hz2 : kvs = (es.zip kvs).map Prod.snd := by rw [List.map_snd_zip (by omega)]
  rw [hz, visit_map, encodeEntries_map] at h
  have hmv := visit_perm D.order path (es.zip kvs)
  have hin : ∀ x ∈ W.visit path (es.zip kvs), ReprE W.E H.mem x.1.1 x.2.1 ∧ ReprE W.E H.mem x.1.2 x.2.2 ∧ x.2 ∈ kvs := by
    intro x hx
    have hx := hmv.mem_iff.mp hx
    obtain ⟨j, hj⟩ := List.mem_iff_getElem?.mp hx
    rw [List.getElem?_zip_eq_some] at hj
    exact ⟨hks j _ _ hj.1 hj.2, hvs j _ _ hj.1 hj.2, List.mem_of_getElem? hj.2⟩
  have hKF : ∀ x ∈ W.visit path (es.zip kvs), ∀ d y, x.2.1 = .iface d y → TimesFine W d y := fun x hx d y he =>
    timesFine_part hf (.skey (hin x hx).2.2 he)
  have hKT : ∀ x ∈ W.visit path (es.zip kvs), ∀ path' b, appendSyncMapKey W H o (run W H o n) path' x.1.1 [] = .ok b → SyncKeyWrites W M o x.2.1 b := by
    intro x hx path' b hb'
    exact wr_skey (fun m _ => wr_upto D m) (hKF x hx) (syncKeyText_of R D.fmt D.honest (hin x hx).1 hb')
  have hEC : ∀ x ∈ W.visit path (es.zip kvs), ∀ c, EntryFail o (fun m x dst => appendSyncMapKey W H o (run W H o n) ((2 * m) :: path) x.1.1 dst)
      (fun m (x : (Eface × Eface) × (Val × Val)) dst => appendJSON W (run W H o n) ((2 * m + 1) :: path) x.1.2 dst) x e c → SyncEntryCut W M o x.2 e c := by
    rintro x hx c ⟨m, hm | ⟨kb, c', h1, h2, h3, rfl⟩⟩
    · exact cut_skey D ih (hin x hx).1 (hKF x hx) hm
    · obtain ⟨d, z, w, -, hy, j, a, path', k, g1, g2, g3⟩ := held_fail R (hin x hx).2.1 h3
      exact .elem (hKT x hx _ _ h1) h2 hy (ih k g2 _ _ _ _ _ _ _ _ _ g1 (timesFine_part hf (.selem (hin x hx).2.2 hy)) (by simp) g3)
  rcases entries_fail (fun _ _ => pre_syncMapKey hpre _ _) (fun _ _ => pre_appendJSON hpre _ _) h with
    ⟨hu, rfl, x, hx, c, hc⟩ | ⟨hu, pre, x, post, ms, c, h1, h2, h3, h4, rfl⟩
  · exact .ssorted hsp hu (hin x hx).2.2 (hEC x hx c hc)
  · have hsub : ∀ y ∈ pre, y ∈ W.visit path (es.zip kvs) := fun y hy => by rw [h1]; simp [hy]
    refine .sunsorted (pre := pre.map Prod.snd) (kv := x.2) (post := post.map Prod.snd) hsp hu ?_ (by simpa using h2) ?_ ?_ ?_ (hEC x (by rw [h1]; simp) c h4)
    · have := (hmv.map Prod.snd).symm
      rw [← hz2, h1] at this
      simpa using this
    · intro j y m hy hm
      rw [List.getElem?_map, Option.map_eq_some_iff] at hy
      obtain ⟨y', hy', rfl⟩ := hy
      obtain ⟨n', g1, g2⟩ := h3 j _ _ hy' hm
      exact hKT _ (hsub _ (List.mem_of_getElem? hy')) _ _ g1
    · intro j y m hy hm
      rw [List.getElem?_map, Option.map_eq_some_iff] at hy
      obtain ⟨y', hy', rfl⟩ := hy
      obtain ⟨n', g1, g2⟩ := h3 j _ _ hy' hm
      obtain ⟨d, z, w, -, he, -⟩ := held_run R (hin _ (hsub _ (List.mem_of_getElem? hy'))).2.1 g2
      exact ⟨d, z, he⟩
    · intro j y m d z hy hm hez
      rw [List.getElem?_map, Option.map_eq_some_iff] at hy
      obtain ⟨y', hy', rfl⟩ := hy
      obtain ⟨n', g1, g2⟩ := h3 j _ _ hy' hm
      have hin' := hin _ (hsub _ (List.mem_of_getElem? hy'))
      obtain ⟨d', z', w, -, he, j', a, path', k, s1, s2, s3⟩ := held_run R hin'.2.1 g2
      rw [he] at hez; cases hez
      exact wr_upto D k _ _ _ _ _ _ _ _ s1 (timesFine_part hf (.selem hin'.2.2 he)) (by simp) s3

/-! ## Leaves -/

theorem callMeth_fail {m : MethKind} {u : TId} {call : Option Ctx → Bytes → MethRes} {b : Bytes} (h : callMeth W o m u call [] = .fail e b) : b = [] := by
  cases m with
  | appendCtx => simp only [callMeth] at h; cases hc : call o.ctx [] <;> rw [hc] at h <;> cases h; rfl
  | append => simp only [callMeth] at h; cases hc : call none [] <;> rw [hc] at h <;> cases h; rfl
  | json =>
    simp only [callMeth] at h
    cases hc : call none [] with
    | ok d =>
      rw [hc] at h
      simp only [relayJSON] at h
      split at h
      · cases h
      · split at h <;> cases h; rfl
    | _ => rw [hc] at h; cases h <;> rfl
  | text => simp only [callMeth] at h; cases hc : call none [] <;> rw [hc] at h <;> cases h; rfl

theorem marshalerV_fail {path : Path} {m : MethKind} {u : TId} {hp : Bool} {b : Bytes} (h : encodeMarshalerV W M o path m u hp v [] = .fail e b) : b = [] := by
  have key : (match receiverV W (if hp then W.ptrTo u else u) hp v with
      | some (rt, x) => callMeth W o m (if hp then W.ptrTo u else u) (M path m · rt x ·) []
      | none => Res.bad) = .fail e b → b = [] := by
    intro h
    split at h
    · exact callMeth_fail h
    · cases h
  simp only [encodeMarshalerV] at h
  split at h
  · split at h
    · cases h
    · exact key h
  · exact key h

theorem cut_meth (D : WriteReady W H M) (hstd : StdText W.E) (S : Stands W H t ca q i p v) (hs : (W.E t).special = none) {m : MethKind}
    (hp : Picks W.E t ca m) {n : Nat} {path : Path} {b : Bytes} (h : run W H o (n + 1) path i p [] = .fail e b) : Cut W M o t ca q v e b := by
  have hnb : ¬ ByKind W.E t ca := picks_byKind hp
  have hns : (W.E t).special ≠ some .syncMap := by rw [hs]; nofun
  rw [stands_runV D.ready S] at h
  have hJ := judged_upto (o := o) (faultReady_of D hstd) (n + 1) (n + 1) (Nat.le_refl _) t ca q i v path S.made ⟨p, S.holds⟩
  have hb0 : b = [] := by
    obtain ⟨k, hm⟩ := S.made
    have hi := picks_made hs hp hm
    subst hi
    simp only [runV, execV] at h
    exact marshalerV_fail h
  subst hb0
  rw [h] at hJ
  refine .fault hns (fun _ => hnb) (fault_leaf hJ fun t' ca' v' h1 => ?_)
  rcases encodes1_kind h1 with h | h
  · exact hnb h
  · exact hns h

theorem cut_special (D : WriteReady W H M) (hstd : StdText W.E) (S : Stands W H t ca q i p v) {s : Special} (hs : (W.E t).special = some s)
    (hsm : s ≠ .syncMap) {n : Nat} {path : Path} {b : Bytes} (h : run W H o (n + 1) path i p [] = .fail e b) : Cut W M o t ca q v e b := by
  have hnb : ¬ ByKind W.E t ca := fun h => by have := h.special; rw [hs] at this; cases this
  have hns : (W.E t).special ≠ some .syncMap := by rw [hs]; simpa using hsm
  rw [stands_runV D.ready S] at h
  have hJ := judged_upto (o := o) (faultReady_of D hstd) (n + 1) (n + 1) (Nat.le_refl _) t ca q i v path S.made ⟨p, S.holds⟩
  have hb0 : b = [] := by
    obtain ⟨k, hm⟩ := S.made
    have hi := special_made hs hm
    subst hi
    simp only [runV, execV] at h
    cases s with
    | syncMap => exact absurd rfl hsm
    | time =>
      obtain ⟨x, rfl, -⟩ := repr_time D.ready.types hs S.holds
      simp only [encodeSpecialV] at h
      cases hr : encodeTime W.appendFormat x [] (bmHas o.flags .unixTime) o.layout <;> rw [hr] at h <;> cases h; rfl
    | duration =>
      obtain ⟨x, rfl, hx, -⟩ := repr_int D.ready.types (D.ready.types.duration t hs) S.holds
      cases x <;> simp [IntVal.kind] at hx
      rename_i d
      simp only [encodeSpecialV] at h
      cases hr : encodeDuration W.fmt W.df d [] o.durFmt <;> rw [hr] at h <;> cases h; rfl
    | number =>
      obtain ⟨x, rfl, -⟩ := repr_str D.ready.types (D.ready.types.number t hs) S.holds
      simp only [encodeSpecialV] at h
      cases hr : encodeNumber x [] (bmHas o.flags .noNumberValidation) <;> rw [hr] at h <;> cases h; rfl
    | rawMessage =>
      simp only [encodeSpecialV] at h
      cases hr : byteSliceOf v <;> rw [hr] at h <;> cases h
  subst hb0
  rw [h] at hJ
  refine .fault hns (fun _ => hnb) (fault_leaf hJ fun t' ca' v' h1 => ?_)
  rcases encodes1_kind h1 with h | h
  · exact hnb h
  · exact hns h

theorem cut_basic (D : WriteReady W H M) (S : Stands W H t ca q i p v) (hb : ByKind W.E t ca) (hk : isBasicK (W.E t).kind = true)
    {n : Nat} {path : Path} {b : Bytes} (h : run W H o (n + 1) path i p [] = .fail e b) : Cut W M o t ca q v e b := by
  obtain ⟨k, hm⟩ := S.made
  have hi := byKind_basic hb hk hm
  rw [stands_runV D.ready S] at h
  have hns : (W.E t).special ≠ some .syncMap := by rw [hb.special]; nofun
  have hkk : (W.E t).kind = .bool ∨ (∃ k, (W.E t).kind = .int k) ∨ (∃ w, (W.E t).kind = .float w) ∨ (W.E t).kind = .string := by
    revert hk
    cases (W.E t).kind <;> simp [isBasicK, isInteger]
  rcases hkk with hk' | ⟨k, hk'⟩ | ⟨w, hk'⟩ | hk'
  · obtain ⟨x, rfl, -⟩ := repr_bool D.ready.types hk' S.holds
    rw [hk'] at hi
    cases q <;> simp only [newBasicTypeInstr, Bool.false_eq_true, if_false, if_true, Option.some.injEq] at hi <;> subst hi
    · cases h
    · cases n <;> cases h
  · obtain ⟨x, rfl, -⟩ := repr_int D.ready.types hk' S.holds
    rw [hk'] at hi
    cases q <;> simp only [newBasicTypeInstr, Bool.false_eq_true, if_false, if_true, Option.some.injEq] at hi <;> subst hi
    · cases h
    · cases n <;> cases h
  · obtain ⟨x, rfl, -⟩ := repr_float D.ready.types hk' S.holds
    rw [hk'] at hi
    have hfl : ∀ dst, (∃ b, appendFloat W.fmt dst w x = .ok b) ∨ ¬ IsFinite w x := by
      intro dst
      by_cases hf : IsFinite w x
      · obtain ⟨out, m, e, h1, -⟩ := C09_finite W.fmt D.fmt dst w x hf
        exact .inl ⟨_, h1⟩
      · exact .inr hf
    cases q <;> simp only [newBasicTypeInstr, Bool.false_eq_true, if_false, if_true, Option.some.injEq] at hi <;> subst hi
    · simp only [runV, execV] at h
      rcases hfl [] with ⟨b', h1⟩ | h1
      · rw [h1] at h; cases h
      · cases hf : appendFloat W.fmt [] w x with
        | ok b' => rw [hf] at h; cases h
        | error u =>
          rw [hf] at h; cases h
          exact .fault hns (by simp) (.float hb hk' h1)
    · cases n with
      | zero => cases h
      | succ n =>
        simp only [runV, execV] at h
        rcases hfl ([] ++ b! "\"") with ⟨b', h1⟩ | h1
        · rw [h1] at h; cases h
        · cases hf : appendFloat W.fmt ([] ++ b! "\"") w x with
          | ok b' => rw [hf] at h; cases h
          | error u =>
            rw [hf] at h; cases h
            exact .quoted hb hk (.float hb hk' h1)
  · obtain ⟨x, rfl, -⟩ := repr_str D.ready.types hk' S.holds
    rw [hk'] at hi
    cases q <;> simp only [newBasicTypeInstr, Bool.false_eq_true, if_false, if_true, Option.some.injEq] at hi <;> subst hi <;> cases h

theorem cut_elems (D : WriteReady W H M) {n : Nat} (ih : CutUpto W H M o n) {u : TId} {ca' : Bool} {j : Instr} {vs : List Val} {loc : Nat → Loc}
    (hS : ∀ (k : Nat) x, vs[k]? = some x → Stands W H u ca' false j (loc k) x) (hf : ∀ x ∈ vs, TimesFine W u x)
    {path : Path} {b : Bytes} (h : arrayLoopV (runV W M o n) path j 0 vs [] = .fail e b) :
    ∃ pre y post bs c, vs = pre ++ y :: post ∧ bs.length = pre.length ∧
      (∀ (k : Nat) x bk, pre[k]? = some x → bs[k]? = some bk → Writes W M o u ca' false x bk) ∧ Cut W M o u ca' false y e c ∧
      b = b! "[" ++ commas (bs ++ [c]) := by
  obtain ⟨pre, y, post, bs, c, path', rfl, h1, h2, h3, h4⟩ := arrayV_fail (pre_runV (contract_long D.fmt) D.honestV n) vs 0 [] b h
  refine ⟨pre, y, post, bs, c, rfl, h1, fun k x bk hx hb => ?_, ?_, by simpa using h4⟩
  · have hx' : (pre ++ y :: post)[k]? = some x := by
      rw [List.getElem?_append_left (List.getElem?_eq_some_iff.mp hx).1]; exact hx
    have S := hS k _ hx'
    obtain ⟨path'', hr⟩ := h2 k _ _ hx hb
    rw [← stands_runV D.ready S] at hr
    exact wr_upto D n _ _ _ _ _ _ _ _ S (hf _ (List.mem_of_getElem? hx')) (by simp) hr
  · have hx' : (pre ++ y :: post)[pre.length]? = some y := by simp
    have S := hS _ _ hx'
    rw [← stands_runV D.ready S] at h3
    exact ih _ _ _ _ _ _ _ _ _ S (hf _ (List.mem_of_getElem? hx')) (by simp) h3

/-! ## All values -/

theorem cut_upto (D : WriteReady W H M) (hstd : StdText W.E) (n : Nat) : CutUpto W H M o n := by
  induction n using Nat.strongRecOn with
  | ind n ih =>
    intro t ca q i p v path e b S hf hq h
    cases n with
    | zero => cases h
    | succ n =>
      have ih' : ∀ m, m ≤ n → CutUpto W H M o m := fun m hm => ih m (by omega)
      cases hs : (W.E t).special with
      | some s =>
        by_cases hsm : s = .syncMap
        · subst hsm; exact cut_smap D ih' S hs hf h
        · exact cut_special D hstd S hs hsm h
      | none =>
        have hns : (W.E t).special ≠ some .syncMap := by rw [hs]; nofun
        rcases picks_or_byKind (ca := ca) hs with hb | ⟨m, hp⟩
        · obtain ⟨k, hm⟩ := S.made
          have nq : isBasicK (W.E t).kind = false → isPtrK (W.E t).kind = false → q = false := by
            intro h1 h2
            cases q with
            | false => rfl
            | true =>
              rcases hq rfl with h | ⟨e, h, -⟩
              · rw [h1] at h; cases h
              · rw [h] at h2; cases h2
          cases hk : (W.E t).kind with
          | ptr e =>
            rcases C43_pointer (o := o) D.ready S hb hk with ⟨rfl, h1⟩ | ⟨x, j, a, rfl, hS, h1⟩
            · rw [h1, List.nil_append] at h
              cases h
            · rw [h1] at h
              refine .ptr hb hk (ih' n (Nat.le_refl n) _ _ _ _ _ _ _ _ _ hS (timesFine_part hf (.ptr hk)) (fun hq' => ?_) h)
              rcases hq hq' with h | ⟨e', h1, -, h2⟩
              · rw [hk] at h; cases h
              · rw [hk] at h1; cases h1; exact .inl h2
          | bool | int _ | float _ | string => exact cut_basic D S hb (by rw [hk]; rfl) h
          | iface k' =>
            have hqf := nq (by rw [hk]; rfl) (by rw [hk]; rfl)
            subst hqf
            rcases C43_interface (o := o) D.ready S hb hk with ⟨rfl, h1⟩ | ⟨d, x, rfl, h1⟩
            · rw [h1, List.nil_append] at h
              cases h
            · rcases h1 n with h2 | ⟨j, p', m, hS, hle, h2⟩
              · rw [h2] at h; cases h
              · rw [h2] at h
                exact .iface hb hk (ih' m hle _ _ _ _ _ _ _ _ _ hS (timesFine_part hf .iface) (by simp) h)
          | struct fs =>
            have hqf := nq (by rw [hk]; rfl) (by rw [hk]; rfl)
            subst hqf
            exact cut_struct D (ih' n (Nat.le_refl n)) S hb ⟨_, hk⟩ hf h
          | other =>
            have hqf := nq (by rw [hk]; rfl) (by rw [hk]; rfl)
            subst hqf
            rw [C42_unsupported S hb (.inl hk)] at h; cases h
            exact .fault hns (by simp) (.typ hb (.inl hk))
          | slice e' =>
            have hqf := nq (by rw [hk]; rfl) (by rw [hk]; rfl)
            subst hqf
            rw [stands_runV D.ready S] at h
            by_cases he : ByteElem W.E e'
            · have hi := byKind_byteSlice hb hk ((isByteElem_iff _ _).mpr he) hm
              subst hi
              simp only [runV, execV] at h
              cases hbs : byteSliceOf v <;> rw [hbs] at h <;> cases h
            · obtain ⟨k', j, hj, rfl⟩ := byKind_slice hb hk (by rw [← isByteElem_iff] at he; simpa using he) hm
              simp only [runV, execV] at h
              rcases repr_slice D.ready.types hk S.holds with ⟨rfl, -⟩ | ⟨d, vs, rfl, -, hd, hvs⟩
              · simp only at h
                split at h <;> cases h
              · simp only at h
                split at h
                · cases h
                · simp only [encodeArrayV, Bool.false_and, Bool.false_eq_true, if_false] at h
                  obtain ⟨pre, y, post, bs, c, h1, h2, h3, h4, rfl⟩ := cut_elems D (ih' n (Nat.le_refl n)) (u := e') (ca' := true) (j := j) (vs := vs)
                    (loc := fun i => .heap (d + i * (W.E e').size))
                    (fun k x hx => ⟨⟨k', hj⟩, hvs k x hx, fun _ => .inr ⟨_, fun h => hd (Nat.add_eq_zero_iff.mp h).1, rfl⟩⟩) (fun x hx => timesFine_part hf (.slice hk hx)) h
                  exact .slice hb hk he h1 h2 h3 h4
          | array m e' =>
            have hqf := nq (by rw [hk]; rfl) (by rw [hk]; rfl)
            subst hqf
            rw [stands_runV D.ready S] at h
            obtain ⟨k', j, hj, rfl⟩ := byKind_array hb hk hm
            obtain ⟨vs, rfl, hlen, hvs⟩ := repr_array D.ready.types hk S.holds
            simp only [runV, execV, encodeArrayV] at h
            split at h
            · cases hbs : bytesOf vs <;> rw [hbs] at h <;> cases h
            · next hc =>
              obtain ⟨pre, y, post, bs, c, h1, h2, h3, h4, rfl⟩ := cut_elems D (ih' n (Nat.le_refl n)) (u := e') (ca' := ca) (j := j) (vs := vs)
                (loc := fun i => p.add (i * (W.E e').size))
                (fun k x hx => ⟨⟨k', hj⟩, hvs k x hx, fun hc => by
                  rcases S.addr hc with h | ⟨a, ha, rfl⟩
                  · rw [hk] at h; cases h
                  · exact .inr ⟨a + k * (W.E e').size, fun h => ha (Nat.add_eq_zero_iff.mp h).1, rfl⟩⟩) (fun x hx => timesFine_part hf (.array hk hx)) h
              refine .array hb hk (fun he => ?_) h1 h2 h3 h4
              rw [(isByteElem_iff _ _).mpr he] at hc
              simpa using hc
          | map kt et =>
            have hqf := nq (by rw [hk]; rfl) (by rw [hk]; rfl)
            subst hqf
            by_cases hkey : KeyType W.E kt
            · exact cut_map D ih' S hb hk hkey hf h
            · rw [C42_unsupported S hb (.inr ⟨kt, et, hk, hkey⟩)] at h; cases h
              exact .fault hns (by simp) (.typ hb (.inr ⟨kt, et, hk, hkey⟩))
        · exact cut_meth D hstd S hs hp h

end Jettison.Props
