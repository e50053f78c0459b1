import Verif.Spec.Visits
import Verif.Proofs.Kinds
import Verif.Proofs.Ends2
import Verif.Proofs.Order
import Verif.Props.Levels
import Verif.Props.Endless

/-! # The data a call visits: success means that the visits end, and when the visits end the call does -/

namespace Jettison.Proofs
open Jettison Jettison.Model Jettison.Spec Jettison.Props

variable {W : World} {H : Heap} {M : MethV} {o : EncOpts}

/-- The visits from the place end. -/
abbrev Settled (W : World) (H : Heap) (o : EncOpts) (p : Spot) : Prop :=
  Acc (fun b a => Visits W.U.isLetter W.U.isDigit W.E H.mem o a b) p

theorem settled_leaf {p : Spot} (h : ∀ y, ¬ Visits W.U.isLetter W.U.isDigit W.E H.mem o p y) : Settled W H o p :=
  .intro p fun y hy => absurd hy (h y)

/-! ## Offsets -/

theorem walk_follows {m : Mem} : ∀ {ss : List Seq} {l l' : Loc}, walk m ss l = some (some l') ↔ Follows m (ss.map Seq.pair) l l'
  | [], l, l' => by
    simp only [walk, Option.some.injEq, List.map_nil]
    constructor
    · rintro rfl; exact .nil
    · intro h; cases h; rfl
  | s :: ss, l, l' => by
    obtain ⟨off, ind⟩ := s
    cases ind with
    | false =>
      simp only [walk, Bool.false_eq_true, if_false, List.map_cons, Seq.pair]
      rw [walk_follows (ss := ss)]
      constructor
      · exact .inside
      · intro h; cases h; assumption
    | true =>
      simp only [walk, if_true, List.map_cons, Seq.pair]
      constructor
      · intro h
        split at h
        · cases h
        · next a ha =>
          split at h
          · cases h
          · next hn =>
            refine .through ?_ hn (walk_follows.mp h)
            simp only [readWord] at ha
            split at ha
            · next hat => cases ha; exact hat
            · cases ha
      · intro h
        cases h with
        | through h1 h2 h3 =>
          simp only [readWord, h1, if_neg h2]
          exact walk_follows.mpr h3

theorem promoted_route {E : Env} {U : UnicodeTab} {t : TId} (hU : TablesOk U.isLetter U.isDigit)
    {path : List Nat} {u u' : TId} {i i' : Nat} {sf sf' : FieldDef} {nm nm' : Bytes} {tg tg' : Bool} {r r' : List (Nat × Bool)}
    (hp : Promoted U.isLetter U.isDigit E t path u i sf nm tg r) (hp' : Promoted U.isLetter U.isDigit E t path u' i' sf' nm' tg' r') : r = r' := by
  obtain ⟨-, -, rfl, -, -⟩ := promoted_functional hU hp hp'
  obtain ⟨⟨p, q, hr, rfl, rfl⟩, -, -⟩ := hp
  obtain ⟨⟨p', q', hr', he, rfl⟩, -, -⟩ := hp'
  obtain ⟨rfl, -⟩ := append_single_inj he
  obtain ⟨-, rfl⟩ := reaches_functional hU hr hr' rfl
  rfl

/-! ## Fields left out -/

theorem special_struct (G : GoTypes W.E W.ptrTo) {t : TId} (h : (W.E t).special = some .syncMap) : ∃ fs, (W.E t).kind = .struct fs :=
  let ⟨fs, h, _⟩ := G.syncMap t h; ⟨fs, h⟩

theorem nil_leaf (G : GoTypes W.E W.ptrTo) {t : TId} {ca : Bool} {l : Loc} (hk : isNilable (W.E t).kind = true) (h : firstWordNil H.mem l = some true) :
    Settled W H o ⟨t, ca, l⟩ := by
  refine settled_leaf fun y hy => ?_
  cases hy with
  | ptr _ _ ha hn => simp [firstWordNil, ha, hn] at h
  | slice _ _ _ ha hn _ => simp [firstWordNil, ha, hn] at h
  | array _ hk' _ => simp [hk', isNilable] at hk
  | key _ _ _ ha hn _ _ => simp [firstWordNil, ha, hn] at h
  | value _ _ _ ha hn _ _ => simp [firstWordNil, ha, hn] at h
  | iface _ _ ha _ => simp [firstWordNil, ha] at h
  | syncKey hs _ _ _ _ => obtain ⟨fs, e⟩ := special_struct G hs; simp [e, isNilable] at hk
  | syncValue hs _ _ _ _ => obtain ⟨fs, e⟩ := special_struct G hs; simp [e, isNilable] at hk
  | member _ hs _ _ _ _ => obtain ⟨fs, e⟩ := hs; simp only [HasFields] at e; simp [e, isNilable] at hk

theorem empty_leaf (G : GoTypes W.E W.ptrTo) {t : TId} {ca : Bool} {l : Loc} (h : (emptyFuncOf (W.E t).kind).eval H.mem l = some true) :
    Settled W H o ⟨t, ca, l⟩ := by
  refine settled_leaf fun y hy => ?_
  cases hy with
  | ptr _ hk ha hn => simp [hk, emptyFuncOf, EmptyFn.eval, readWord, ha, hn] at h
  | slice _ hk _ ha hn hi =>
    simp [hk, emptyFuncOf, EmptyFn.eval, readSlice, ha] at h
    omega
  | array _ hk hi =>
    have : ¬ _ = 0 := Nat.ne_of_gt (Nat.lt_of_le_of_lt (Nat.zero_le _) hi)
    simp [hk, emptyFuncOf, EmptyFn.eval, this] at h
  | key _ hk _ ha hn hm hx =>
    simp [hk, emptyFuncOf, EmptyFn.eval, readWord, ha, mapLen, hn, readMap, hm] at h
    subst h; cases hx
  | value _ hk _ ha hn hm hx =>
    simp [hk, emptyFuncOf, EmptyFn.eval, readWord, ha, mapLen, hn, readMap, hm] at h
    subst h; cases hx
  | iface _ hk ha _ => simp [hk, emptyFuncOf, EmptyFn.eval, firstWordNil, ha] at h
  | syncKey hs _ _ _ _ => obtain ⟨fs, e⟩ := special_struct G hs; simp [e, emptyFuncOf, EmptyFn.eval] at h
  | syncValue hs _ _ _ _ => obtain ⟨fs, e⟩ := special_struct G hs; simp [e, emptyFuncOf, EmptyFn.eval] at h
  | member _ hs _ _ _ _ => obtain ⟨fs, e⟩ := hs; simp only [HasFields] at e; simp [e, emptyFuncOf, EmptyFn.eval] at h

theorem readWord_at {m : Mem} {l : Loc} {a : Addr} (h : readWord m l = some a) : m.at l = some (.word a) := by
  simp only [readWord] at h
  split at h
  · next hat => cases h; exact hat
  · cases h

/-! ## Success at a place is success at all it visits -/

theorem arrayLoop_each {rec : Rec} {path : Path} {ins : Instr} {es : Nat} {p : Loc} : ∀ (n i : Nat) (dst : Bytes) {out : Bytes},
    arrayLoop rec path ins es p i n dst = .ok out → ∀ j, i ≤ j → j < i + n → ∃ path' dst' out', rec path' ins (p.add (j * es)) dst' = .ok out'
  | 0, i, dst, out, _, j, h1, h2 => by omega
  | n + 1, i, dst, out, h, j, h1, h2 => by
    simp only [arrayLoop] at h
    split at h
    · next d hd =>
      by_cases e : j = i
      · subst e; exact ⟨_, _, _, hd⟩
      · exact arrayLoop_each n (i + 1) d h j (by omega) (by omega)
    · next hno => rw [h] at hno; exact absurd rfl (hno out)

theorem unsortedLoop_each {α : Type} {kf vf : Nat → α → Bytes → Res} : ∀ (l : List α) (n : Nat) (dst : Bytes) {out : Bytes},
    unsortedLoop kf vf n l dst = .ok out → ∀ e ∈ l, (∃ n d d', kf n e d = .ok d') ∧ ∃ n d d', vf n e d = .ok d'
  | [], _, _, _, _, e, he => by cases he
  | a :: l, n, dst, out, h, e, he => by
    simp only [unsortedLoop] at h
    split at h
    · next d hd =>
      split at h
      · next d2 hd2 =>
        rcases List.mem_cons.mp he with rfl | he
        · exact ⟨⟨_, _, _, hd⟩, _, _, _, hd2⟩
        · exact unsortedLoop_each l _ _ h e he
      · next hno => rw [h] at hno; exact absurd rfl (hno out)
    · next hno => rw [h] at hno; exact absurd rfl (hno out)

theorem sortedLoop_each {α : Type} {kf vf : Nat → α → Bytes → Res} : ∀ (l : List α) (n : Nat) (buf : Bytes) (acc : List (Bytes × Bytes)) {mel : List (Bytes × Bytes)},
    sortedLoop kf vf n l buf acc = .ok mel → ∀ e ∈ l, (∃ n d d', kf n e d = .ok d') ∧ ∃ n d d', vf n e d = .ok d'
  | [], _, _, _, _, _, e, he => by cases he
  | a :: l, n, buf, acc, mel, h, e, he => by
    simp only [sortedLoop] at h
    split at h
    · next d hd =>
      split at h
      · cases h
      · split at h
        · next d2 hd2 =>
          split at h
          · cases h
          · rcases List.mem_cons.mp he with rfl | he
            · exact ⟨⟨_, _, _, hd⟩, _, _, _, hd2⟩
            · exact sortedLoop_each l _ _ _ h e he
        · cases h
    · cases h

theorem sortedLoop_notOk {α : Type} {kf vf : Nat → α → Bytes → Res} {d : Bytes} : ∀ (l : List α) (n : Nat) (buf : Bytes) (acc : List (Bytes × Bytes)),
    sortedLoop kf vf n l buf acc ≠ .stop (.ok d)
  | [], _, _, _ => by simp [sortedLoop]
  | a :: l, n, buf, acc => by
    simp only [sortedLoop]
    split
    · split
      · simp
      · split
        · split
          · simp
          · exact sortedLoop_notOk l _ _ _
        · next h => intro e; rw [Coll.stop.inj e] at h; exact absurd rfl (h _)
    · next h => intro e; rw [Coll.stop.inj e] at h; exact absurd rfl (h _)

theorem entries_each {α : Type} {kf vf : Nat → α → Bytes → Res} {l : List α} {dst out : Bytes} (h : encodeEntries W o kf vf l dst = .ok out) :
    ∀ e ∈ l, (∃ n d d', kf n e d = .ok d') ∧ ∃ n d d', vf n e d = .ok d' := by
  simp only [encodeEntries] at h
  split at h
  · next d hd =>
    split at hd
    · exact unsortedLoop_each l _ _ hd
    · simp only [encodeSorted] at hd
      split at hd
      · next mel hm => exact sortedLoop_each l _ _ _ hm
      · cases hd
      · subst hd
        exact absurd (by assumption) (sortedLoop_notOk (kf := kf) (vf := vf) (d := d) l 0 [] [])
  · next hno => rw [h] at hno; exact absurd rfl (hno out)

theorem structLoop_each {rec : Rec} {path : Path} {p : Loc} : ∀ (fs : List FInstr) (i : Nat) (first : Bool) (dst : Bytes) {out : Bytes},
    structLoop H o rec path p i fs first dst = .ok out → ∀ f ∈ fs, fieldLoc H.mem o f p = some none ∨
      ∃ fp path' d d', fieldLoc H.mem o f p = some (some fp) ∧ rec path' f.instr fp d = .ok d'
  | [], _, _, _, _, _, f, hf => by cases hf
  | g :: fs, i, first, dst, out, h, f, hf => by
    simp only [structLoop] at h
    split at h
    · cases h
    · next hl =>
      rcases List.mem_cons.mp hf with rfl | hf
      · exact .inl hl
      · exact structLoop_each fs _ _ _ h f hf
    · next fp hl =>
      split at h
      · next d hd =>
        rcases List.mem_cons.mp hf with rfl | hf
        · exact .inr ⟨fp, _, _, _, hl, hd⟩
        · split at h
          · exact structLoop_each fs _ _ _ h f hf
          · exact structLoop_each fs _ _ _ h f hf
      · next hno => rw [h] at hno; exact absurd rfl (hno out)

/-- What the instruction of a dynamic type is run on. -/
theorem instrFor_held (R : Ready W H M) {t : TId} {w : Addr} {p : Spot} (hp : Held W.E t w p) {i : Instr} (hi : instrFor W.E W.tfuel t = some i) :
    ∃ j, newInstruction W.E W.tfuel p.t p.ca false = some j ∧
      ((i = .inline j ∧ p.l = .tmp w) ∨ (i = j ∧ p.l = .heap w)) := by
  obtain ⟨rank, hrank, hlt⟩ := R.nest
  have hdir := isInlined_iff hrank W.tfuel t (hlt t)
  unfold instrFor at hi
  split at hi
  · cases hi
  · next j hj =>
    cases hi
    cases hp with
    | direct hd => exact ⟨j, hj, .inl ⟨if_pos (hdir.mpr hd), rfl⟩⟩
    | indirect hd => exact ⟨j, hj, .inr ⟨if_neg fun h => hd (hdir.mp h), rfl⟩⟩

theorem held_exists (E : Env) (t : TId) (w : Addr) : ∃ p, Held E t w p := by
  by_cases h : Inlined E t
  · exact ⟨_, .direct h⟩
  · exact ⟨_, .indirect h⟩

/-- The members of a struct and the fields of its instruction. -/
theorem fields_members {t : TId} {ca : Bool} {flds : List FInstr}
    (h : structFieldsInstr W.E W.U W.grow W.sort W.tfuel t ca = some flds) : ∃ fl, flds.map FInstr.fld = fl ∧
      structFields W.E W.U W.grow W.sort W.tfuel t = some fl ∧ ∀ g ∈ flds, newFieldInstr W.E W.tfuel t ca g.fld = some g := by
  unfold structFieldsInstr at h
  split at h
  · cases h
  · next fl hfl =>
    obtain ⟨h1, h2⟩ := mapM_fld h
    exact ⟨fl, h1, hfl, h2⟩

theorem plain_leaf (G : GoTypes W.E W.ptrTo) {t : TId} {ca : Bool} {l : Loc} (hk : isBasicK (W.E t).kind = true) : Settled W H o ⟨t, ca, l⟩ := by
  refine settled_leaf fun z hz => ?_
  cases hz with
  | ptr _ h | slice _ h | array _ h | key _ h | value _ h | iface _ h => rw [h] at hk; cases hk
  | syncKey hs | syncValue hs => obtain ⟨fs, e⟩ := special_struct G hs; rw [e] at hk; cases hk
  | member _ hs => obtain ⟨fs, e⟩ := hs; simp only [HasFields] at e; rw [e] at hk; cases hk

theorem string_basic {k : Kind} (h : isStringK k = true) : isBasicK k = true := by
  cases k <;> first | rfl | cases h

theorem newInstruction_special {E : Env} {k : Nat} {t : TId} {ca q : Bool} {s : Special} {i : Instr} (hs : (E t).special = some s)
    (h : newInstruction E k t ca q = some i) : i = .goType s := by
  obtain ⟨k, rfl⟩ := byKind_pos h
  simp only [newInstruction, newGoTypeInstr, hs, Option.map_some] at h
  exact (Option.some.inj h).symm

/-- Success means that the visits end. -/
theorem run_ok_settled (R : Ready W H M) (hw : OrderOk W.order) : ∀ (n k : Nat) (t : TId) (ca q : Bool) (i : Instr) (l : Loc) (path : Path) (dst out : Bytes),
    newInstruction W.E k t ca q = some i → run W H o n path i l dst = .ok out → Settled W H o ⟨t, ca, l⟩ := by
  intro n
  induction n using Nat.strongRecOn with
  | ind n ih =>
    intro k t ca q i l path dst out hi hr
    cases n with
    | zero => cases hr
    | succ n =>
      have held : ∀ {u w p path d d'}, Held W.E u w p → appendJSON W (run W H o n) path (some (u, w)) d = .ok d' → Settled W H o p := by
        intro u w p path d d' hp h
        simp only [appendJSON] at h
        split at h
        · cases h
        · next i hi =>
          obtain ⟨j, hj, ⟨rfl, hl⟩ | ⟨rfl, hl⟩⟩ := instrFor_held R hp hi
          · cases n with
            | zero => cases h
            | succ n =>
              simp only [run, exec] at h
              obtain ⟨pt, pc, pl⟩ := p
              cases hl
              exact ih n (by omega) _ _ _ _ _ _ _ _ _ hj h
          · obtain ⟨pt, pc, pl⟩ := p
            cases hl
            exact ih n (by omega) _ _ _ _ _ _ _ _ _ hj h
      refine .intro _ fun y hy => ?_
      rw [run] at hr
      cases hy with
      | ptr hb hk ha hn =>
        obtain ⟨k', j, hj, rfl⟩ := byKind_ptr hb hk hi
        simp only [exec, readWord, ha, withRead, ne_eq, hn, not_false_eq_true, if_true] at hr
        exact ih n (by omega) _ _ _ _ _ _ _ _ _ hj hr
      | @slice _ _ _ e d len x hb hk he ha hn hx =>
        have he' : isByteElem W.E e = false := by rw [← Bool.not_eq_true, isByteElem_iff]; exact he
        obtain ⟨k', j, hj, rfl⟩ := byKind_slice hb hk he' hi
        have : ¬ len = 0 := by omega
        simp only [exec, readSlice, ha, withRead, hn, this, if_false, encodeArray, Bool.false_and, Bool.false_eq_true] at hr
        obtain ⟨p', d1, d2, h⟩ := arrayLoop_each _ _ _ hr x (by omega) (by omega)
        exact ih n (by omega) _ _ _ _ _ _ _ _ _ hj h
      | @array _ _ _ e len x hb hk hx =>
        obtain ⟨k', j, hj, rfl⟩ := byKind_array hb hk hi
        simp only [exec, encodeArray] at hr
        split at hr
        · next hba =>
          rw [Bool.and_eq_true, isByteElem_iff] at hba
          exact plain_leaf R.types (by rw [hba.1.1]; rfl)
        · obtain ⟨p', d1, d2, h⟩ := arrayLoop_each _ _ _ hr x (by omega) (by omega)
          exact ih n (by omega) _ _ _ _ _ _ _ _ _ hj h
      | @key _ _ _ kt et a es x hb hk hkt ha hn hm hx =>
        obtain ⟨k', ki, vi, hki, hvi, rfl⟩ := byKind_map hb hk ((mapKeyOk_iff _ _).mpr hkt) hi
        have hlen : ¬ es.length = 0 := fun h => by rw [List.length_eq_zero_iff.mp h] at hx; cases hx
        simp only [exec, encodeMap, readWord, ha, withRead, hn, if_false, readMap, hm, hlen] at hr
        obtain ⟨⟨m, d, d', h⟩, -⟩ := entries_each hr x ((visit_perm hw _ _).mem_iff.mpr hx)
        by_cases hstr : isStringK (W.E kt).kind = true
        · exact plain_leaf R.types (string_basic hstr)
        · rw [if_neg hstr] at hki
          simp only [wrapKey] at h
          have quoted : ∀ {m j p d d'}, m ≤ n → run W H o m p (if (!isStringK (W.E kt).kind && !(W.E kt).meths.text) = true then .quoted ki else ki) (.heap j) d = .ok d' →
              Settled W H o ⟨kt, false, .heap j⟩ := by
            intro m j p d d' hm h
            split at h
            · cases m with
              | zero => cases h
              | succ m =>
                simp only [run, exec] at h
                split at h
                · next h' => exact ih m (by omega) _ _ _ _ _ _ _ _ _ hki h'
                · next hno => rw [h] at hno; exact absurd rfl (hno _)
            · exact ih m (by omega) _ _ _ _ _ _ _ _ _ hki h
          split at h
          · next ht =>
            rw [Bool.and_eq_true] at ht
            cases n with
            | zero => cases h
            | succ n =>
              simp only [run, exec, withRead] at h
              split at h
              · split at h
                · refine settled_leaf fun z hz => ?_
                  have no : ∀ ca, ¬ ByKind W.E kt ca := fun ca hb => hb.meths (.inr (.inr (.inr ht.1)))
                  cases hz with
                  | ptr hb | slice hb | array hb | key hb | value hb | iface hb | member hb => exact no _ hb
                  | syncKey hs | syncValue hs =>
                    obtain ⟨fs, e⟩ := special_struct R.types hs
                    rw [e] at ht
                    cases ht.2
                · exact quoted (by omega) h
              · cases h
          · exact quoted (Nat.le_refl n) h
      | @value _ _ _ kt et a es x hb hk hkt ha hn hm hx =>
        obtain ⟨k', ki, vi, hki, hvi, rfl⟩ := byKind_map hb hk ((mapKeyOk_iff _ _).mpr hkt) hi
        have hlen : ¬ es.length = 0 := fun h => by rw [List.length_eq_zero_iff.mp h] at hx; cases hx
        simp only [exec, encodeMap, readWord, ha, withRead, hn, if_false, readMap, hm, hlen] at hr
        obtain ⟨-, m, d, d', h⟩ := entries_each hr x ((visit_perm hw _ _).mem_iff.mpr hx)
        exact ih n (by omega) _ _ _ _ _ _ _ _ _ hvi h
      | iface hb hk ha hp =>
        have := byKind_iface hb hk hi
        subst this
        simp only [exec, readEface, ha, withRead] at hr
        exact held hp hr
      | @syncKey _ _ _ es x u w p hs ha hx hxe hp =>
        have := newInstruction_special hs hi
        subst this
        simp only [exec, encodeSpecial, encodeSyncMap, readSyncMap, ha, withRead] at hr
        obtain ⟨⟨m, d, d', h⟩, -⟩ := entries_each hr x ((visit_perm hw _ _).mem_iff.mpr hx)
        rw [hxe] at h
        simp only [appendSyncMapKey] at h
        split at h
        · cases h
        · split at h
          · next hstr =>
            have hpt : y.t = u := by cases hp <;> rfl
            obtain ⟨yt, yc, yl⟩ := y
            cases hpt
            exact plain_leaf R.types (string_basic hstr)
          · split at h
            · next h' => exact held hp h'
            · next hno => rw [h] at hno; exact absurd rfl (hno _)
      | @syncValue _ _ _ es x u w p hs ha hx hxe hp =>
        have := newInstruction_special hs hi
        subst this
        simp only [exec, encodeSpecial, encodeSyncMap, readSyncMap, ha, withRead] at hr
        obtain ⟨-, m, d, d', h⟩ := entries_each hr x ((visit_perm hw _ _).mem_iff.mpr hx)
        rw [hxe] at h
        exact held hp h
      | @member _ _ _ l' f u x tg r hb hs hc hpr hh hf =>
        obtain ⟨fs, hfs⟩ := hs
        have := byKind_struct hb hfs hi
        subst this
        simp only [exec] at hr
        split at hr
        · next h0 =>
          simp only [HasFields] at hfs
          rw [hfs] at h0
          have : fs = [] := List.length_eq_zero_iff.mp h0
          subst this
          have := ((membersOf_empty (letter := W.U.isLetter) (digit := W.U.isDigit) hfs).2 f).mpr hc
          cases this
        · split at hr
          · cases hr
          · next flds hflds =>
            obtain ⟨fl, h1, h2, h3⟩ := fields_members hflds
            obtain ⟨g, hg1, hg2⟩ := members_of R.tab R.sort (R.apart t) h2
            obtain ⟨f', hf', rfl⟩ := List.mem_map.mp ((hg1.2 f).mpr hc)
            rw [← h1] at hf'
            obtain ⟨z, hz, rfl⟩ := List.mem_map.mp hf'
            obtain ⟨hbeh, u', x', hpr'⟩ := hg2 z.fld (h1 ▸ hf')
            have hnf := h3 z hz
            obtain ⟨ftyp, e1, e2, e3, e4, e5, e6⟩ := newFieldInstr_inv hnf
            have hty : (g z.fld).decl.typ = ftyp := by have := promoted_type ⟨fs, hfs⟩ hpr'; rw [e1] at this; simpa using this.symm
            rw [hbeh.path] at hpr
            have hroute := promoted_route R.tab hpr hpr'
            subst hroute
            have hden : ¬ o.isDeniedField z.fld.name = true := by
              rw [Props.C20_denied_iff o, ← hbeh.name]; exact hh
            have hwalk := walk_follows.mpr hf
            rw [hty]
            rcases structLoop_each _ _ _ _ hr z hz with hnone | ⟨fp, p', d, d', hsome, hok⟩
            · simp only [fieldLoc, if_neg hden, hwalk] at hnone
              split at hnone
              · cases hnone
              · next hn =>
                split at hn
                · next ho =>
                  rw [e3, Bool.and_eq_true] at ho
                  exact nil_leaf R.types ho.2 hn
                · cases hn
              · split at hnone
                · cases hnone
                · next hn =>
                  rw [e5] at hn
                  split at hn
                  · next hoe =>
                    split at hoe
                    · cases hoe; exact empty_leaf R.types hn
                    · cases hoe
                  · cases hn
                · cases hnone
            · simp only [fieldLoc, if_neg hden, hwalk] at hsome
              have : fp = l' := by
                split at hsome
                · cases hsome
                · cases hsome
                · split at hsome
                  · cases hsome
                  · cases hsome
                  · cases hsome; rfl
              subst this
              exact ih n (by omega) _ _ _ _ _ _ _ _ _ e6 hok

/-! ## When the visits end, the call does -/

/-- Running the instruction at the location ends. -/
def EndsAt (W : World) (H : Heap) (o : EncOpts) (n : Nat) (i : Instr) (l : Loc) : Prop := ∀ path dst, run W H o n path i l dst ≠ .nofuel

theorem endsAt_mono {n m : Nat} (h : n ≤ m) {i : Instr} {l : Loc} (he : EndsAt W H o n i l) : EndsAt W H o m i l :=
  fun path dst => by rw [run_mono h (he path dst)]; exact he path dst

theorem endsAll {α : Type} {P : Nat → α → Prop} (mono : ∀ {n m a}, n ≤ m → P n a → P m a) : ∀ (l : List α), (∀ a ∈ l, ∃ n, P n a) → ∃ n, ∀ a ∈ l, P n a
  | [], _ => ⟨0, by simp⟩
  | a :: l, h => by
    obtain ⟨n, hn⟩ := h a List.mem_cons_self
    obtain ⟨m, hm⟩ := endsAll (P := P) mono l fun b ha => h b (List.mem_cons_of_mem _ ha)
    refine ⟨max n m, fun x hx => ?_⟩
    rcases List.mem_cons.mp hx with rfl | hx
    · exact mono (Nat.le_max_left _ _) hn
    · exact mono (Nat.le_max_right _ _) (hm x hx)

theorem withRead_ends {α : Type} {r : Option α} {f : α → Res} (h : ∀ a, r = some a → f a ≠ .nofuel) : withRead r f ≠ .nofuel := by
  cases r with
  | none => simp [withRead]
  | some a => exact h a rfl

theorem encodeMarshaler_ends {path : Path} {m : MethKind} {t : TId} {hp : Bool} {l : Loc} {dst : Bytes} : encodeMarshaler W H o path m t hp l dst ≠ .nofuel := by
  have inv : ∀ {t}, invokeMeth W H o path m t hp l dst ≠ .nofuel := by
    intro t
    refine withRead_ends fun r _ => ?_
    split
    · simp
    · exact callMeth_ends
  simp only [encodeMarshaler]
  split
  · split
    · refine withRead_ends fun b _ => ?_
      split
      · simp
      · exact inv
    · exact inv
  · split
    · simp
    · exact inv

theorem exceptRes_ends {r : Except Unit Bytes} {e : Err} {dst : Bytes} : exceptRes r e dst ≠ .nofuel := by
  cases r <;> simp [exceptRes]

theorem special_ends {rec : Rec} {path : Path} {s : Special} (hs : s ≠ .syncMap) {l : Loc} {dst : Bytes} : encodeSpecial W H o rec path s l dst ≠ .nofuel := by
  cases s with
  | syncMap => exact absurd rfl hs
  | time => exact withRead_ends fun a _ => by simp only [BRes.res]; split <;> simp
  | duration =>
    refine withRead_ends fun a _ => ?_
    split
    · simp only [BRes.res]; split <;> simp
    · simp
  | number => exact withRead_ends fun a _ => exceptRes_ends
  | rawMessage => exact withRead_ends fun a _ => by simp

theorem mArrayLoop_ends {rec : Rec} {path : Path} {ins : Instr} {es : Nat} {p : Loc} : ∀ (n i : Nat) (dst : Bytes),
    (∀ j, i ≤ j → j < i + n → ∀ path dst, rec path ins (p.add (j * es)) dst ≠ .nofuel) → arrayLoop rec path ins es p i n dst ≠ .nofuel
  | 0, i, dst, _ => by simp [arrayLoop]
  | n + 1, i, dst, h => by
    simp only [arrayLoop]
    split
    · exact mArrayLoop_ends n _ _ fun j h1 h2 => h j (by omega) (by omega)
    · exact h i (Nat.le_refl i) (by omega) _ _

theorem mArray_ends {rec : Rec} {path : Path} {ins : Instr} {es len : Nat} {isba : Bool} {p : Loc} {dst : Bytes}
    (h : ∀ j, j < len → ∀ path dst, rec path ins (p.add (j * es)) dst ≠ .nofuel) : encodeArray H o rec path ins es len isba p dst ≠ .nofuel := by
  simp only [encodeArray]
  split
  · exact withRead_ends fun a _ => by simp
  · exact mArrayLoop_ends _ _ _ fun j _ h2 => h j (by omega)

theorem mStructLoop_ends {rec : Rec} {path : Path} {p : Loc} : ∀ (fs : List FInstr) (i : Nat) (first : Bool) (dst : Bytes),
    (∀ f ∈ fs, ∀ fp, fieldLoc H.mem o f p = some (some fp) → ∀ path dst, rec path f.instr fp dst ≠ .nofuel) → structLoop H o rec path p i fs first dst ≠ .nofuel
  | [], _, _, _, _ => by simp [structLoop]
  | g :: fs, i, first, dst, h => by
    have ih := fun i first dst => mStructLoop_ends (rec := rec) (path := path) (p := p) fs i first dst fun g hg => h g (List.mem_cons_of_mem _ hg)
    simp only [structLoop]
    split
    · simp
    · exact ih _ _ _
    · next fp hl =>
      split
      · split
        · exact ih _ _ _
        · exact ih _ _ _
      · exact h g List.mem_cons_self fp hl _ _

/-- Encoding an interface value ends. -/
def AppEnds (W : World) (H : Heap) (o : EncOpts) (n : Nat) (x : Eface) : Prop := ∀ path dst, appendJSON W (run W H o n) path x dst ≠ .nofuel

theorem appEnds_mono {n m : Nat} (h : n ≤ m) {x : Eface} (he : AppEnds W H o n x) : AppEnds W H o m x := by
  intro path dst
  have := he path dst
  cases x with
  | none => simp [appendJSON]
  | some x =>
    simp only [appendJSON] at this ⊢
    split
    · next hi => simp [hi] at this
    · next i hi =>
      rw [hi] at this
      rw [run_mono h this]
      exact this

variable {S : List TId}

theorem held_ends (R : Ready W H M) {rk : TId → Nat} (fit : Fit W S rk) {u : TId} (hu : u ∈ S) {w : Addr}
    (h : ∀ p, Held W.E u w p → p.t ∈ S → ∀ k q i, newInstruction W.E k p.t p.ca q = some i → ∃ n, EndsAt W H o n i p.l) :
    ∃ n, AppEnds W H o n (some (u, w)) := by
  obtain ⟨p, hp⟩ := held_exists W.E u w
  obtain ⟨i, hi, -⟩ := instrFor_in fit hu
  have hpt : p.t = u := by cases hp <;> rfl
  obtain ⟨j, hj, hc⟩ := instrFor_held R hp hi
  obtain ⟨n, hn⟩ := h p hp (hpt ▸ hu) _ _ _ hj
  rcases hc with ⟨rfl, hl⟩ | ⟨rfl, hl⟩
  · refine ⟨n + 1, fun path dst => ?_⟩
    simp only [appendJSON, hi, run, exec]
    rw [← hl]
    exact hn _ _
  · refine ⟨n, fun path dst => ?_⟩
    simp only [appendJSON, hi]
    rw [← hl]
    exact hn _ _

theorem quoted_ends {n : Nat} {i : Instr} {l : Loc} (h : EndsAt W H o n i l) : EndsAt W H o (n + 1) (.quoted i) l := by
  intro path dst
  simp only [run, exec]
  split
  · simp
  · exact h _ _

/-- When the visits end, the call does. -/
theorem settled_ends (R : Ready W H M) {rk : TId → Nat} (fit : Fit W S rk) (hH : HeapIn S H.mem) {p : Spot} (hp : Settled W H o p) :
    p.t ∈ S → ∀ k q i, newInstruction W.E k p.t p.ca q = some i → ∃ n, EndsAt W H o n i p.l := by
  induction hp with
  | intro p _ ih =>
    obtain ⟨t, ca, l⟩ := p
    intro hS k q i hi
    simp only at hS hi ⊢
    cases hsp : (W.E t).special with
    | some s =>
      have := newInstruction_special hsp hi
      subst this
      by_cases hs : s = .syncMap
      · subst hs
        cases hes : readSyncMap H.mem l with
        | none => exact ⟨1, fun path dst => by simp [run, exec, encodeSpecial, encodeSyncMap, withRead, hes]⟩
        | some es =>
          have hat : H.mem.at l = some (.smap es) := by
            simp only [readSyncMap] at hes
            split at hes
            · next h => cases hes; exact h
            · cases hes
          have hd := hH.smap _ _ hat
          have one : ∀ e ∈ es, ∃ n, AppEnds W H o n e.1 ∧ AppEnds W H o n e.2 := by
            intro e he
            have k1 : ∃ n, AppEnds W H o n e.1 := by
              cases h : e.1 with
              | none => exact ⟨0, fun _ _ => by simp [appendJSON]⟩
              | some x => exact held_ends R fit ((hd e he).1 x.1 x.2 h) fun p hp => ih p (.syncKey hsp hat he h hp)
            have k2 : ∃ n, AppEnds W H o n e.2 := by
              cases h : e.2 with
              | none => exact ⟨0, fun _ _ => by simp [appendJSON]⟩
              | some x => exact held_ends R fit ((hd e he).2 x.1 x.2 h) fun p hp => ih p (.syncValue hsp hat he h hp)
            obtain ⟨n1, h1⟩ := k1
            obtain ⟨n2, h2⟩ := k2
            exact ⟨max n1 n2, appEnds_mono (Nat.le_max_left _ _) h1, appEnds_mono (Nat.le_max_right _ _) h2⟩
          obtain ⟨n, hn⟩ := endsAll (P := fun n (e : Eface × Eface) => AppEnds W H o n e.1 ∧ AppEnds W H o n e.2)
            (fun h a => ⟨appEnds_mono h a.1, appEnds_mono h a.2⟩) es one
          refine ⟨n + 1, fun path dst => ?_⟩
          simp only [run, exec, encodeSpecial, encodeSyncMap, hes, withRead]
          refine entries_ends (fun e he m d => ?_) (fun e he m d => (hn e (visit_mem he)).2 _ _)
          have h1 := (hn e (visit_mem he)).1
          generalize e.1 = x at h1
          cases x with
          | none => simp [appendSyncMapKey]
          | some x =>
            simp only [appendSyncMapKey]
            split
            · simp
            · split
              · exact withRead_ends fun a _ => by simp
              · split
                · simp
                · exact h1 _ _
      · exact ⟨1, fun path dst => special_ends hs⟩
    | none =>
      obtain ⟨k, rfl⟩ := byKind_pos hi
      cases hm : newMarshalerTypeInstr W.E t ca with
      | some j =>
        have : i = j := by
          simp only [newInstruction, newGoTypeInstr, hsp, Option.map_none, hm] at hi
          exact (Option.some.inj hi).symm
        subst this
        have : ∃ m t' hp, i = .marshaler m t' hp := by
          simp only [newMarshalerTypeInstr] at hm
          repeat' split at hm
          all_goals first | (cases hm; exact ⟨_, _, _, rfl⟩) | cases hm
        obtain ⟨m, t', hp, rfl⟩ := this
        exact ⟨1, fun path dst => encodeMarshaler_ends⟩
      | none =>
        have hb : ByKind W.E t ca := kind_of_none (by simp [newGoTypeInstr, hsp]) hm
        by_cases hbas : isBasicK (W.E t).kind = true
        · have hib := byKind_basic hb hbas hi
          refine ⟨2, fun path dst => ?_⟩
          generalize (W.E t).kind = kd at hib
          cases kd <;> simp only [newBasicTypeInstr] at hib <;> (try cases hib) <;> cases q <;> simp only [if_true, if_false, Bool.false_eq_true, run, exec] <;>
            (try split) <;> (try simp) <;> first | exact withRead_ends fun a _ => exceptRes_ends | (exact withRead_ends fun a _ => by simp)
        · cases hk : (W.E t).kind with
          | bool | int | float | string => rw [hk] at hbas; exact absurd rfl hbas
          | other =>
            have := byKind_other hb hk hi
            subst this
            exact ⟨1, fun path dst => by simp [run, exec]⟩
          | iface m =>
            have := byKind_iface hb hk hi
            subst this
            cases hv : readEface H.mem l with
            | none => exact ⟨1, fun path dst => by simp [run, exec, hv, withRead]⟩
            | some x =>
              cases x with
              | none => exact ⟨1, fun path dst => by simp [run, exec, hv, withRead]⟩
              | some x =>
                have hat : H.mem.at l = some (.eface (some x)) := by
                  simp only [readEface] at hv
                  split at hv
                  · next h => cases hv; exact h
                  · cases hv
                  · cases hv
                obtain ⟨n, hn⟩ := held_ends R fit (hH.eface _ _ hat x.1 x.2 rfl) fun p hp => ih p (.iface hb hk hat hp)
                exact ⟨n + 1, fun path dst => by simp only [run, exec, hv, withRead]; exact hn _ _⟩
          | ptr e =>
            obtain ⟨k', j, hj, rfl⟩ := byKind_ptr hb hk hi
            cases hv : readWord H.mem l with
            | none => exact ⟨1, fun path dst => by simp [run, exec, hv, withRead]⟩
            | some a =>
              by_cases ha : a = 0
              · exact ⟨1, fun path dst => by simp [run, exec, hv, withRead, ha]⟩
              · have hat : H.mem.at l = some (.word a) := readWord_at hv
                obtain ⟨n, hn⟩ := ih _ (.ptr hb hk hat ha) (fit.parts t hS _ (.ptr hk)).1 _ _ _ hj
                exact ⟨n + 1, fun path dst => by simp only [run, exec, hv, withRead, ne_eq, ha, not_false_eq_true, if_true]; exact hn _ _⟩
          | slice e =>
            cases he : isByteElem W.E e with
            | true =>
              have := byKind_byteSlice hb hk he hi
              subst this
              exact ⟨1, fun path dst => withRead_ends fun a _ => by simp⟩
            | false =>
              have he' : ¬ ByteElem W.E e := by rw [← isByteElem_iff, he]; simp
              obtain ⟨k', j, hj, rfl⟩ := byKind_slice hb hk he hi
              cases hv : readSlice H.mem l with
              | none => exact ⟨1, fun path dst => by simp [run, exec, hv, withRead]⟩
              | some x =>
                obtain ⟨d, len⟩ := x
                by_cases hd : d = 0
                · exact ⟨1, fun path dst => by simp [run, exec, hv, withRead, hd]⟩
                · have hat : H.mem.at l = some (.slice d len) := by
                    simp only [readSlice] at hv
                    split at hv
                    · next h => cases hv; exact h
                    · cases hv
                  obtain ⟨n, hn⟩ := endsAll (P := fun n x => EndsAt W H o n j (.heap (d + x * (W.E e).size))) (fun h => endsAt_mono h) (List.range len) fun x hx =>
                    ih _ (.slice hb hk he' hat hd (List.mem_range.mp hx)) (fit.parts t hS _ (.slice hk)).1 _ _ _ hj
                  refine ⟨n + 1, fun path dst => ?_⟩
                  simp only [run, exec, hv, withRead, hd, if_false]
                  split
                  · simp
                  · exact mArray_ends fun x hx => hn x (List.mem_range.mpr hx)
          | array len e =>
            obtain ⟨k', j, hj, rfl⟩ := byKind_array hb hk hi
            obtain ⟨n, hn⟩ := endsAll (P := fun n x => EndsAt W H o n j (l.add (x * (W.E e).size))) (fun h => endsAt_mono h) (List.range len) fun x hx =>
              ih _ (.array hb hk (List.mem_range.mp hx)) (fit.parts t hS _ (.array hk)).1 _ _ _ hj
            refine ⟨n + 1, fun path dst => ?_⟩
            simp only [run, exec]
            exact mArray_ends fun x hx => hn x (List.mem_range.mpr hx)
          | map kt et =>
            cases hok : mapKeyOk W.E kt with
            | false =>
              have := byKind_badMap hb hk hok hi
              subst this
              exact ⟨1, fun path dst => by simp [run, exec]⟩
            | true =>
              have hkt := (mapKeyOk_iff _ _).mp hok
              obtain ⟨k', ki, vi, hki, hvi, rfl⟩ := byKind_map hb hk hok hi
              cases hv : readWord H.mem l with
              | none => exact ⟨1, fun path dst => by simp [run, exec, encodeMap, hv, withRead]⟩
              | some a =>
                by_cases ha : a = 0
                · exact ⟨1, fun path dst => by simp [run, exec, encodeMap, hv, withRead, ha]⟩
                · have hat : H.mem.at l = some (.word a) := readWord_at hv
                  cases hes : readMap H.mem a with
                  | none => exact ⟨1, fun path dst => by simp [run, exec, encodeMap, hv, withRead, ha, hes]⟩
                  | some es =>
                    have hm' : H.mem.at (.heap a) = some (.hmap es) := by
                      simp only [readMap] at hes
                      split at hes
                      · next h => cases hes; exact h
                      · cases hes
                    have one : ∀ x ∈ es, ∃ n, EndsAt W H o n (wrapKey W.E kt ki) (.heap x.1) ∧ EndsAt W H o n vi (.heap x.2) := by
                      intro x hx
                      have hkey : ∃ n, EndsAt W H o n ki (.heap x.1) := by
                        split at hki
                        · cases hki
                          exact ⟨1, fun path dst => withRead_ends fun a _ => by simp⟩
                        · exact ih _ (.key hb hk hkt hat ha hm' hx) (fit.parts t hS _ (.key hk)).1 _ _ _ hki
                      obtain ⟨n1, h1⟩ := hkey
                      obtain ⟨n2, h2⟩ := ih _ (.value hb hk hkt hat ha hm' hx) (fit.parts t hS _ (.val hk)).1 _ _ _ hvi
                      refine ⟨max (n1 + 2) n2, ?_, endsAt_mono (Nat.le_max_right _ _) h2⟩
                      refine endsAt_mono (Nat.le_max_left _ _) ?_
                      simp only [wrapKey]
                      have hq : EndsAt W H o (n1 + 1) (if (!isStringK (W.E kt).kind && !(W.E kt).meths.text) = true then .quoted ki else ki) (.heap x.1) := by
                        split
                        · exact quoted_ends h1
                        · exact endsAt_mono (by omega) h1
                      split
                      · intro path dst
                        simp only [run, exec]
                        refine withRead_ends fun a _ => ?_
                        split
                        · simp
                        · exact hq _ _
                      · exact endsAt_mono (by omega) hq
                    obtain ⟨n, hn⟩ := endsAll (P := fun n (x : Addr × Addr) => EndsAt W H o n (wrapKey W.E kt ki) (.heap x.1) ∧ EndsAt W H o n vi (.heap x.2))
                      (fun h a => ⟨endsAt_mono h a.1, endsAt_mono h a.2⟩) es one
                    refine ⟨n + 1, fun path dst => ?_⟩
                    simp only [run, exec, encodeMap, hv, withRead, ha, if_false, hes]
                    split
                    · simp
                    · exact entries_ends (fun e he m d => (hn e (visit_mem he)).1 _ _) (fun e he m d => (hn e (visit_mem he)).2 _ _)
          | struct fs =>
            have := byKind_struct hb hk hi
            subst this
            obtain ⟨flds, hflds, -⟩ := structFields_in fit ca hS ⟨fs, hk⟩
            obtain ⟨fl, h1, h2, h3⟩ := fields_members hflds
            obtain ⟨g, hg1, hg2⟩ := members_of R.tab R.sort (R.apart t) h2
            have one : ∀ f ∈ flds, ∃ n, ∀ fp, fieldLoc H.mem o f l = some (some fp) → EndsAt W H o n f.instr fp := by
              intro f hf
              have hf' : f.fld ∈ fl := h1 ▸ List.mem_map_of_mem hf
              obtain ⟨hbeh, u', x', hpr'⟩ := hg2 f.fld hf'
              obtain ⟨ftyp, e1, e2, e3, e4, e5, e6⟩ := newFieldInstr_inv (h3 f hf)
              have hty : (g f.fld).decl.typ = ftyp := by have := promoted_type ⟨fs, hk⟩ hpr'; rw [e1] at this; simpa using this.symm
              cases hfl : fieldLoc H.mem o f l with
              | none => exact ⟨0, fun fp h => by cases h⟩
              | some x =>
                cases x with
                | none => exact ⟨0, fun fp h => by cases h⟩
                | some fp =>
                  have hv : ¬ Hidden o.allowList o.denyList (g f.fld).name ∧ walk H.mem f.fld.embedSeq l = some (some fp) := by
                    simp only [fieldLoc] at hfl
                    split at hfl
                    · cases hfl
                    · next hd =>
                      refine ⟨by rw [hbeh.name, ← Props.C20_denied_iff o]; exact hd, ?_⟩
                      split at hfl
                      · cases hfl
                      · cases hfl
                      · next hw =>
                        rw [hw]
                        split at hfl
                        · cases hfl
                        · cases hfl
                        · split at hfl
                          · cases hfl
                          · cases hfl
                          · exact hfl
                  have hvis := Visits.member (m := H.mem) (o := o) (f := g f.fld) hb ⟨fs, hk⟩ ((hg1.2 _).mp (List.mem_map_of_mem hf'))
                    (by rw [hbeh.path, hbeh.name]; exact hpr') hv.1 (walk_follows.mp hv.2)
                  have hin : (g f.fld).decl.typ ∈ S := by
                    obtain ⟨fl', k1, k2⟩ := fit.fields t hS ⟨fs, hk⟩
                    rw [h2] at k1
                    cases k1
                    obtain ⟨u, k3, k4⟩ := k2 _ hf'
                    rw [e1] at k3
                    cases k3
                    rw [hty]; exact k4
                  obtain ⟨n, hn⟩ := ih _ hvis hin _ _ _ (by simp only [hty]; exact e6)
                  exact ⟨n, fun fp' h => by cases h; exact hn⟩
            obtain ⟨n, hn⟩ := endsAll (P := fun n (f : FInstr) => ∀ fp, fieldLoc H.mem o f l = some (some fp) → EndsAt W H o n f.instr fp)
              (fun h a fp hfp => endsAt_mono h (a fp hfp)) flds one
            refine ⟨n + 1, fun path dst => ?_⟩
            simp only [run, exec, hflds]
            split
            · simp
            · exact mStructLoop_ends _ _ _ _ fun f hf fp hfp => hn f hf fp hfp

end Jettison.Proofs
