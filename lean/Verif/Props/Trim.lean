import Verif.Spec.Trim
import Verif.Props.WritesExact

/-!
# C74: the lists only take members away

`AllowList` and `DenyList` have no effect but to leave out members of structs. The text of a call
with them is the text of the call without them, less those members (`Trimmed`, Spec/Trim), and what
can be encoded without them can be encoded with them.
-/

namespace Jettison.Props
open Jettison Jettison.Model Jettison.Spec Jettison.Proofs

variable {W : World} {M : MethV} {o : EncOpts} {t : TId} {ca q : Bool} {v : Val} {b b' : Bytes}

/-! ## The lists and the parts of a text -/

theorem timeText_un {x : GoTime} (h : TimeText W (unlisted o) x b) : TimeText W o x b := by
  cases h with
  | unix h1 h2 => exact .unix h1 h2
  | rfc3339 h1 h2 h3 => exact .rfc3339 h1 h2 h3
  | nano h1 h2 h3 => exact .nano h1 h2 h3
  | layout h1 h2 => exact .layout h1 h2

theorem durationText_un {d : Int64} (h : DurationText W (unlisted o) d b) : DurationText W o d b := by
  cases h with
  | str h1 h2 h3 => exact .str h1 h2 h3
  | neg h1 h2 h3 => exact .neg h1 h2 h3
  | ns h1 h2 => exact .ns h1 h2
  | us h1 h2 => exact .us h1 h2
  | ms h1 h2 => exact .ms h1 h2
  | sec h1 h2 => exact .sec h1 h2
  | min h1 h2 => exact .min h1 h2

theorem copiedAs_un {s : Bytes} (h : CopiedAs (unlisted o) s b) : CopiedAs o s b := by
  cases h with
  | verbatim h => exact .verbatim h
  | compact h1 h2 => exact .compact h1 h2

theorem namedAs_un {s : Bytes} (h : NamedAs (unlisted o) s b) : NamedAs o s b := by
  cases h with
  | raw h => exact .raw h
  | marked h1 h2 => exact .marked h1 h2

theorem spelledAs_un {s : Bytes} (h : SpelledAs (unlisted o) s b) : SpelledAs o s b := by
  cases h with
  | raw h => exact .raw h
  | escaped h1 h2 => exact .escaped h1 h2

theorem methText_un {rt : TId} {x : Val} {m : MethKind} (h : MethText M (unlisted o) rt x m b) : MethText M o rt x m b := by
  cases h with
  | ctx h => exact .ctx h
  | app h => exact .app h
  | json h1 h2 h3 => exact .json h1 h2 (copiedAs_un h3)
  | text h => exact .text h

theorem leftOut_un {v : Val} {m : MField} : LeftOut o v m ↔ Hidden o.allowList o.denyList m.name ∨ LeftOut (unlisted o) v m := by
  have : ¬ Hidden (unlisted o).allowList (unlisted o).denyList m.name := by
    rintro (⟨_, h, -⟩ | ⟨_, h, -⟩) <;> cases h
  unfold LeftOut
  constructor
  · rintro (h | h)
    · exact .inl h
    · exact .inr (.inr h)
  · rintro (h | h | h)
    · exact .inl h
    · exact absurd h this
    · exact .inr h

/-- The text ends with `null`. -/
theorem trimmed_null (h : Trimmed o b b') : (∃ pre, b = pre ++ b! "null") ↔ ∃ pre, b' = pre ++ b! "null" := by
  have no : ∀ (x : Bytes) (z : UInt8), z ≠ c! 'l' → ¬ ∃ pre : Bytes, x ++ [z] = pre ++ b! "null" := by
    rintro x z hz ⟨pre, h⟩
    have := congrArg List.getLast? h
    simp at this
    exact hz this
  cases h with
  | same => exact Iff.rfl
  | list => exact ⟨fun h => absurd h (no _ _ (by decide)), fun h => absurd h (no _ _ (by decide))⟩
  | entries => exact ⟨fun h => absurd h (no _ _ (by decide)), fun h => absurd h (no _ _ (by decide))⟩
  | members => exact ⟨fun h => absurd h (no _ _ (by decide)), fun h => absurd h (no _ _ (by decide))⟩

/-! ## Values that the lists have no effect on -/

theorem same_special {s : Special} (hs : (W.E t).special = some s) (hn : s ≠ .syncMap) (h : Writes W M (unlisted o) t ca q v b)
    (h' : Writes W M o t ca q v b') : b = b' := by
  cases s with
  | time =>
    obtain ⟨x, rfl, -, h1⟩ := w_time hs h
    obtain ⟨x', e, -, h2⟩ := w_time hs h'
    cases e
    exact timeText_unique (timeText_un h1) h2
  | duration =>
    obtain ⟨x, rfl, h1⟩ := w_duration hs h
    obtain ⟨x', e, h2⟩ := w_duration hs h'
    cases e
    exact durationText_unique (durationText_un h1) h2
  | number =>
    obtain ⟨x, rfl, h1⟩ := w_number hs h
    obtain ⟨x', e, h2⟩ := w_number hs h'
    cases e
    rw [h1, h2]
  | rawMessage =>
    rcases w_raw hs h with ⟨rfl, h1⟩ | ⟨vs, x, rfl, h1, h2⟩ <;> rcases w_raw hs h' with ⟨e, h1'⟩ | ⟨vs', x', e, h1', h2'⟩ <;> cases e
    · rw [h1, h1']
    · rw [asBytes_unique h1 h1'] at h2
      exact copiedAs_unique (copiedAs_un h2) h2'
  | syncMap => exact absurd rfl hn

theorem same_meth (hP : PathFree M) {m : MethKind} (hs : (W.E t).special = none) (hm : Picks W.E t ca m) (h : Writes W M (unlisted o) t ca q v b)
    (h' : Writes W M o t ca q v b') : b = b' := by
  rcases w_meth hs hm h with ⟨rfl, rfl, g1, g2⟩ | ⟨rt, x, u, g1, g2⟩ <;> rcases w_meth hs hm h' with ⟨e, rfl, g1', g2'⟩ | ⟨rt', x', u', g1', g2'⟩
  · rfl
  · exfalso
    cases g1' with
    | own _ n1 n2 => exact g2.elim (fun h => n2 h rfl) n1
    | addr n1 => exact n1 g1
  · subst e
    exfalso
    cases g1 with
    | own _ n1 n2 => exact g2'.elim (fun h => n2 h rfl) n1
    | addr n1 => exact n1 g1'
  · obtain ⟨rfl, rfl, -⟩ := receives_unique g1 g1'
    exact methText_unique hP (methText_un g2) g2'

theorem same_scalar (hb : ByKind W.E t ca) (hk : isBasicK (W.E t).kind = true) (h : Writes W M (unlisted o) t ca false v b)
    (h' : Writes W M o t ca false v b') : b = b' := by
  rcases w_scalar hb hk h with ⟨x, rfl, h1⟩ | ⟨x, rfl, h1⟩ | ⟨w, x, rfl, h1⟩ | ⟨s, c, rfl, h1, h2⟩ <;>
    rcases w_scalar hb hk h' with ⟨x', e, h1'⟩ | ⟨x', e, h1'⟩ | ⟨w', x', e, h1'⟩ | ⟨s', c', e, h1', h2'⟩ <;> cases e
  · rw [h1, h1']
  · exact intLiteral_unique h1 h1'
  · exact floatText_unique h1 h1'
  · rw [h2, h2', spelledAs_unique (spelledAs_un h1) h1']

theorem same_basic (hb : ByKind W.E t ca) (hk : isBasicK (W.E t).kind = true) (h : Writes W M (unlisted o) t ca q v b)
    (h' : Writes W M o t ca q v b') : b = b' := by
  cases q with
  | false => exact same_scalar hb hk h h'
  | true =>
    rcases w_quoted hb hk h with ⟨h1, c, h2, rfl⟩ | ⟨h1, s, c, rfl, h2, rfl⟩ <;>
      rcases w_quoted hb hk h' with ⟨h1', c', h2', rfl⟩ | ⟨h1', s', c', e, h2', rfl⟩
    · rw [same_scalar hb hk h2 h2']
    · exact absurd h1' h1
    · exact absurd h1 h1'
    · cases e; rw [spelledAs_unique (spelledAs_un h2) h2']

/-- Keys of maps are not structs: the lists have no effect on them. -/
theorem same_key_part (G : GoTypes W.E W.ptrTo) (hT : StdText W.E) (hP : PathFree M) (hk : KeyType W.E t) (hns : (W.E t).kind ≠ .string)
    (h : Writes W M (unlisted o) t ca q v b) (h' : Writes W M o t ca q v b') : b = b' := by
  cases hs : (W.E t).special with
  | some s =>
    refine same_special hs ?_ h h'
    rintro rfl
    obtain ⟨fs, hf, -⟩ := G.syncMap t hs
    rcases hk with h | ⟨k, h⟩ | h
    · exact hns h
    · rw [hf] at h; cases h
    · cases hT t _ hs h
  | none =>
    rcases picks_or_byKind (ca := ca) hs with hb | ⟨m, hm⟩
    · refine same_basic hb ?_ h h'
      rcases hk with h | ⟨k, h⟩ | h
      · exact absurd h hns
      · rw [h]; rfl
      · rw [byKind_noText hb] at h; cases h
    · exact same_meth hP hs hm h h'

theorem same_key (G : GoTypes W.E W.ptrTo) (hT : StdText W.E) (hP : PathFree M) {k : TId} (hk : KeyType W.E k) {x : Val}
    (h : KeyWrites W M (unlisted o) k x b) (h' : KeyWrites W M o k x b') : b = b' := by
  cases h with
  | str h1 h2 =>
    cases h' with
    | str _ h3 => rw [spelledAs_unique (spelledAs_un h2) h3]
    | text h | quoted h => exact absurd h1 h
  | nilText h1 h2 h3 =>
    cases h' with
    | nilText => rfl
    | text _ _ h => exact absurd rfl (h h3)
    | quoted _ h => rw [h] at h2; cases h2
  | text h1 h2 h3 h4 =>
    cases h' with
    | str h => exact absurd h h1
    | nilText _ _ h => exact absurd rfl (h3 h)
    | text _ _ _ h => exact same_key_part G hT hP hk h1 h4 h
    | quoted _ h => rw [h] at h2; cases h2
  | quoted h1 h2 h4 =>
    cases h' with
    | str h => exact absurd h h1
    | nilText _ h => rw [h] at h2; cases h2
    | text _ h => rw [h] at h2; cases h2
    | quoted _ _ h => rw [same_key_part G hT hP hk h1 h4 h]

theorem same_skey (G : GoTypes W.E W.ptrTo) (hT : StdText W.E) (hP : PathFree M) {x : Val}
    (h : SyncKeyWrites W M (unlisted o) x b) (h' : SyncKeyWrites W M o x b') : b = b' := by
  cases h with
  | str h1 h2 =>
    cases h' with
    | str _ h3 => rw [spelledAs_unique (spelledAs_un h2) h3]
    | text h => exact absurd h1 h
    | quoted h => rw [h] at h1; cases h1
  | text h1 h2 h4 =>
    cases h' with
    | str h => exact absurd h h1
    | text _ _ h => exact same_key_part G hT hP (.inr (.inr h2)) h1 h4 h
    | quoted _ h => rw [h] at h2; cases h2
  | quoted h1 h2 h4 =>
    cases h' with
    | str h => rw [h] at h1; cases h1
    | text _ h => rw [h] at h2; cases h2
    | quoted _ _ h => rw [same_key_part G hT hP (.inr (.inl ⟨_, h1⟩)) (by rw [h1]; simp) h4 h]

/-! ## Lists -/

theorem texts_both {α β γ : Type} {R : α → β → Prop} {R' : α → γ → Prop} {S : β → γ → Prop} {l : List α} {r : List β} {r' : List γ}
    (hl : r.length = l.length) (hl' : r'.length = l.length)
    (h : ∀ (i : Nat) x y, l[i]? = some x → r[i]? = some y → R x y) (h' : ∀ (i : Nat) x y, l[i]? = some x → r'[i]? = some y → R' x y)
    (hu : ∀ x ∈ l, ∀ y y', R x y → R' x y' → S y y') : r'.length = r.length ∧ ∀ (i : Nat) y y', r[i]? = some y → r'[i]? = some y' → S y y' := by
  refine ⟨by omega, fun i y y' h1 h2 => ?_⟩
  have h3 : i < l.length := hl ▸ (List.getElem?_eq_some_iff.mp h1).1
  exact hu _ (List.getElem_mem h3) _ _ (h i _ _ (List.getElem?_eq_getElem h3) h1) (h' i _ _ (List.getElem?_eq_getElem h3) h2)

/-- Entries with the same keys are in the same order. -/
theorem inOrder_both {S : Bytes → Bytes → Prop} {ms mt a c : List (Bytes × Bytes)} (hu : bmHas o.flags .unsortedMap = false)
    (hl : mt.length = ms.length) (hk : ∀ (i : Nat) m m', ms[i]? = some m → mt[i]? = some m' → m'.1 = m.1 ∧ S m.2 m'.2)
    (hd : mt.Pairwise fun x y => keyBody x.1 ≠ keyBody y.1) (ha : InOrder (unlisted o) ms a) (hb : InOrder o mt c) :
    c.length = a.length ∧ ∀ (i : Nat) m m', a[i]? = some m → c[i]? = some m' → m'.1 = m.1 ∧ S m.2 m'.2 := by
  have hkeys : mt.map (·.1) = ms.map (·.1) := by
    refine List.ext_getElem (by simp [hl]) fun i h1 h2 => ?_
    simp only [List.length_map] at h1 h2
    simp only [List.getElem_map]
    exact (hk i _ _ (List.getElem?_eq_getElem h2) (List.getElem?_eq_getElem h1)).1
  have hp : (c.map (·.1)).Perm (a.map (·.1)) := (hb.1.map _).trans (hkeys ▸ (ha.1.map _).symm)
  have hd' : (mt.map (·.1)).Pairwise fun x y => keyBody x = keyBody y → x = y :=
    List.pairwise_map.mpr (hd.imp fun h e => absurd e h)
  have heq : c.map (·.1) = a.map (·.1) := by
    refine List.Perm.eq_of_pairwise (le := fun x y : Bytes => ByteLe (keyBody x) (keyBody y)) ?_ (List.pairwise_map.mpr (hb.2 hu).1)
      (List.pairwise_map.mpr (ha.2 hu).1) hp
    intro x y hx hy h1 h2
    exact pairwise_all hd' (fun _ _ => rfl) (fun _ _ h e => (h e.symm).symm) _ ((hb.1.map _).mem_iff.mp hx) _
      ((hb.1.map _).mem_iff.mp (hp.mem_iff.mpr hy)) (byteLe_antisymm h1 h2)
  refine ⟨by simpa using congrArg List.length heq, fun i m m' h1 h2 => ?_⟩
  have hm : m'.1 = m.1 := by
    have := congrArg (·[i]?) heq
    simp only [List.getElem?_map, h1, h2, Option.map_some, Option.some.injEq] at this
    exact this
  refine ⟨hm, ?_⟩
  obtain ⟨j, hj, ej⟩ := List.getElem_of_mem (ha.1.mem_iff.mp (List.mem_of_getElem? h1))
  obtain ⟨k, hk', ek⟩ := List.getElem_of_mem (hb.1.mem_iff.mp (List.mem_of_getElem? h2))
  have hj' : j < mt.length := hl ▸ hj
  have e1 := hk j _ _ (List.getElem?_eq_getElem hj) (List.getElem?_eq_getElem hj')
  have : j = k := by
    rw [List.pairwise_iff_getElem] at hd
    have e2 : (mt[j]).1 = (mt[k]).1 := by rw [e1.1, ej, ek, hm]
    rcases Nat.lt_trichotomy j k with h | h | h
    · exact absurd (congrArg keyBody e2) (hd j k hj' hk' h)
    · exact h
    · exact absurd (congrArg keyBody e2.symm) (hd k j hk' hj' h)
  subst this
  rw [ej, ek] at e1
  exact e1.2

/-! ## Values -/

theorem KeysDiffer.part {t' : TId} {v' : Val} (h : KeysDiffer W M o t v) (hw : Within W.E t v t' v') : KeysDiffer W M o t' v' :=
  ⟨fun t'' k e kvs h' => h.map t'' k e kvs (within_trans hw h'), fun t'' kvs h' => h.smap t'' kvs (within_trans hw h')⟩

def TrimBelow (W : World) (M : MethV) (o : EncOpts) (n : Nat) : Prop :=
  ∀ t ca q v b b', sizeOf v < n → HasType W.E t v → KeysDiffer W M o t v → Writes W M (unlisted o) t ca q v b → Writes W M o t ca q v b' → Trimmed o b b'

theorem same_trim (h : b = b') : Trimmed o b b' := h ▸ .same _

set_option maxHeartbeats 1000000 in
theorem trim_step (G : GoTypes W.E W.ptrTo) (hT : StdText W.E) (hP : PathFree M) (hu : bmHas o.flags .unsortedMap = false) {n : Nat} (ih : TrimBelow W M o n)
    (hn : sizeOf v = n) (ht : HasType W.E t v) (hd : KeysDiffer W M o t v) (h : Writes W M (unlisted o) t ca q v b) (h' : Writes W M o t ca q v b') :
    Trimmed o b b' := by
  have part : ∀ {t' : TId} {v' : Val} {ca q : Bool} {b b' : Bytes}, Part W.E t v t' v' → sizeOf v' < sizeOf v →
      Writes W M (unlisted o) t' ca q v' b → Writes W M o t' ca q v' b' → Trimmed o b b' := fun hp hs h h' =>
    ih _ _ _ _ _ _ (hn ▸ hs) (part_type G ht hp) (hd.part (.step .refl hp)) h h'
  cases hs : (W.E t).special with
  | some s =>
    by_cases hsm : s = .syncMap
    · subst hsm
      obtain ⟨kvs, ms, ms', rfl, rfl, h1, h2, h3, h4, h5⟩ := w_smap hs h
      obtain ⟨kvs', mt, mt', e, rfl, h1', h2', h3', h4', h5'⟩ := w_smap hs h'
      cases e
      have small : ∀ {kv : Val × Val}, kv ∈ kvs → sizeOf kv.1 < sizeOf (Val.smap kvs) ∧ sizeOf kv.2 < sizeOf (Val.smap kvs) := by
        intro kv hkv
        have := List.sizeOf_lt_of_mem hkv
        have e : sizeOf kv = 1 + sizeOf kv.1 + sizeOf kv.2 := by cases kv; simp
        simp only [Val.smap.sizeOf_spec]
        omega
      have hdyn : ∀ kv ∈ kvs, ∃ d x, kv.2 = .iface d x := by
        intro kv hkv
        have hx : InIface W.E kv.2 := by
          cases ht with
          | smap _ _ hx => exact hx kv hkv
          | iface _ hx => cases hx
        rcases inIface_cases hx with e | ⟨d, x, e, -⟩
        · exact absurd e (h4 kv hkv)
        · exact ⟨d, x, e⟩
      have hboth := texts_both (R := fun (kv : Val × Val) (m : Bytes × Bytes) => SyncKeyWrites W M (unlisted o) kv.1 m.1 ∧
          ∀ d x, kv.2 = .iface d x → Writes W M (unlisted o) d (isPtrK (W.E d).kind) false x m.2)
          (R' := fun (kv : Val × Val) (m : Bytes × Bytes) => SyncKeyWrites W M o kv.1 m.1 ∧
          ∀ d x, kv.2 = .iface d x → Writes W M o d (isPtrK (W.E d).kind) false x m.2)
          (S := fun m m' => m'.1 = m.1 ∧ Trimmed o m.2 m'.2) h1 h1'
          (fun i kv m ha hb => ⟨h2 i kv m ha hb, fun d x => h3 i kv m d x ha hb⟩) (fun i kv m ha hb => ⟨h2' i kv m ha hb, fun d x => h3' i kv m d x ha hb⟩) (by
        intro kv hkv m m' ⟨a1, a2⟩ ⟨b1, b2⟩
        obtain ⟨d, x, e⟩ := hdyn kv hkv
        refine ⟨(same_skey G hT hP a1 b1).symm, part (.selem hkv e) ?_ (a2 d x e) (b2 d x e)⟩
        have := (small hkv).2
        rw [e] at this
        simp only [Val.iface.sizeOf_spec] at this
        omega)
      obtain ⟨g1, g2⟩ := inOrder_both (S := Trimmed o) hu hboth.1 hboth.2
        (pairwise_texts (R := fun (kv : Val × Val) (m : Bytes × Bytes) => SyncKeyWrites W M o kv.1 m.1) h1' h2'
          ((hd.smap _ _ .refl).imp fun hab (x y : Bytes × Bytes) hx hy => hab x.1 y.1 hx hy)) h5 h5'
      exact .entries g1 (fun i m m' ha hb => (g2 i m m' ha hb).1) (fun i m m' ha hb => (g2 i m m' ha hb).2)
    · exact same_trim (same_special hs hsm h h')
  | none =>
    rcases picks_or_byKind (ca := ca) hs with hb | ⟨m, hm⟩
    · by_cases hk : isBasicK (W.E t).kind = true
      · exact same_trim (same_basic hb hk h h')
      · cases hkk : (W.E t).kind with
        | bool | int | float | string => rw [hkk] at hk; exact absurd rfl hk
        | other => exact absurd hkk (w_kind hb h)
        | ptr e =>
          rcases w_ptr hb hkk h with ⟨rfl, rfl⟩ | ⟨x, rfl, h1⟩ <;> rcases w_ptr hb hkk h' with ⟨e, rfl⟩ | ⟨x', e, h1'⟩ <;> cases e
          · exact .same _
          · exact part (.ptr hkk) (by simp) h1 h1'
        | iface k =>
          have := w_tag hb hk (by simp [hkk]) h
          subst this
          rcases w_iface hb hkk h with ⟨rfl, rfl⟩ | ⟨d, x, rfl, h1⟩ <;> rcases w_iface hb hkk h' with ⟨e, rfl⟩ | ⟨d', x', e, h1'⟩ <;> cases e
          · exact .same _
          · exact part .iface (by simp only [Val.iface.sizeOf_spec]; omega) h1 h1'
        | slice e =>
          have := w_tag hb hk (by simp [hkk]) h
          subst this
          by_cases he : ByteElem W.E e
          · rcases w_bytes hb hkk he h with ⟨rfl, rfl⟩ | ⟨vs, x, c, rfl, rfl, h1, h2⟩ <;>
              rcases w_bytes hb hkk he h' with ⟨e, rfl⟩ | ⟨vs', x', c', e, rfl, h1', h2'⟩ <;> cases e
            · exact .same _
            · rw [asBytes_unique h1 h1'] at h2
              rcases h2 with ⟨f, h2⟩ | ⟨f, h2⟩ <;> rcases h2' with ⟨f', h2'⟩ | ⟨f', h2'⟩
              · rw [base64_unique h2 h2']; exact .same _
              · rw [show bmHas o.flags .rawByteSlice = false from f] at f'; cases f'
              · rw [show bmHas o.flags .rawByteSlice = true from f] at f'; cases f'
              · rw [spelledAs_unique (spelledAs_un h2) h2']; exact .same _
          · rcases w_slice hb hkk he h with ⟨rfl, rfl⟩ | ⟨vs, bs, rfl, rfl, h1, h2⟩ <;>
              rcases w_slice hb hkk he h' with ⟨e, rfl⟩ | ⟨vs', bs', e, rfl, h1', h2'⟩ <;> cases e
            · exact .same _
            · obtain ⟨g1, g2⟩ := texts_both (S := Trimmed o) h1 h1' h2 h2' fun x hx y y' ha hb => part (.slice hkk hx) (by
                have := List.sizeOf_lt_of_mem hx
                simp only [Val.slice.sizeOf_spec]
                omega) ha hb
              exact .list g1 g2
        | array k e =>
          have := w_tag hb hk (by simp [hkk]) h
          subst this
          rcases w_array hb hkk h with ⟨vs, x, c, rfl, rfl, g1, g2, g3, g4⟩ | ⟨vs, bs, rfl, rfl, g1, g2, g3⟩ <;>
            rcases w_array hb hkk h' with ⟨vs', x', c', e', rfl, g1', g2', g3', g4'⟩ | ⟨vs', bs', e', rfl, g1', g2', g3'⟩ <;> cases e'
          · rw [asBytes_unique g3 g3'] at g4
            rw [spelledAs_unique (spelledAs_un g4) g4']
            exact .same _
          · rw [show bmHas (unlisted o).flags .byteArrayAsString = false from g1' g1] at g2; cases g2
          · rw [show bmHas o.flags .byteArrayAsString = false from g1 g1'] at g2'; cases g2'
          · obtain ⟨f1, f2⟩ := texts_both (S := Trimmed o) g2 g2' g3 g3' fun x hx y y' ha hb => part (.array hkk hx) (by
                have := List.sizeOf_lt_of_mem hx
                simp only [Val.array.sizeOf_spec]
                omega) ha hb
            exact .list f1 f2
        | map k e =>
          have := w_tag hb hk (by simp [hkk]) h
          subst this
          have hkt := (w_map hb hkk h).1
          rcases (w_map hb hkk h).2 with ⟨rfl, rfl⟩ | ⟨kvs, ms, ms', rfl, rfl, h1, h2, h3, h5⟩ <;>
            rcases (w_map hb hkk h').2 with ⟨e, rfl⟩ | ⟨kvs', mt, mt', e, rfl, h1', h2', h3', h5'⟩ <;> cases e
          · exact .same _
          · have small : ∀ {kv : Val × Val}, kv ∈ kvs → sizeOf kv.1 < sizeOf (Val.map kvs) ∧ sizeOf kv.2 < sizeOf (Val.map kvs) := by
              intro kv hkv
              have := List.sizeOf_lt_of_mem hkv
              have e : sizeOf kv = 1 + sizeOf kv.1 + sizeOf kv.2 := by cases kv; simp
              simp only [Val.map.sizeOf_spec]
              omega
            have hboth := texts_both
                (R := fun (kv : Val × Val) (m : Bytes × Bytes) => KeyWrites W M (unlisted o) k kv.1 m.1 ∧ Writes W M (unlisted o) _ false false kv.2 m.2)
                (R' := fun (kv : Val × Val) (m : Bytes × Bytes) => KeyWrites W M o k kv.1 m.1 ∧ Writes W M o _ false false kv.2 m.2)
                (S := fun m m' => m'.1 = m.1 ∧ Trimmed o m.2 m'.2) h1 h1'
                (fun i kv m ha hb => ⟨h2 i kv m ha hb, h3 i kv m ha hb⟩) (fun i kv m ha hb => ⟨h2' i kv m ha hb, h3' i kv m ha hb⟩) (by
              intro kv hkv m m' ⟨a1, a2⟩ ⟨b1, b2⟩
              exact ⟨(same_key G hT hP hkt a1 b1).symm, part (.elem hkk hkv) (small hkv).2 a2 b2⟩)
            obtain ⟨g1, g2⟩ := inOrder_both (S := Trimmed o) hu hboth.1 hboth.2
              (pairwise_texts (R := fun (kv : Val × Val) (m : Bytes × Bytes) => KeyWrites W M o k kv.1 m.1) h1' h2'
                ((hd.map _ _ _ _ .refl hkk).imp fun hab (x y : Bytes × Bytes) hx hy => hab x.1 y.1 hx hy)) h5 h5'
            exact .entries g1 (fun i m m' ha hb => (g2 i m m' ha hb).1) (fun i m m' ha hb => (g2 i m m' ha hb).2)
        | struct fs =>
          have := w_tag hb hk (by simp [hkk]) h
          subst this
          have hst : IsStruct W.E t := ⟨fs, hkk⟩
          obtain ⟨l, tried, kept, q', x, c, key, lead, a1, a2, a3, a4, a5, a6, a7, a8, a9, a10, rfl⟩ := w_struct hb hst h
          obtain ⟨l2, tried2, kept2, q2, x2, c2, key2, lead2, b1, b2, b3, b4, b5, b6, b7, b8, b9, b10, rfl⟩ := w_struct hb hst h'
          cases membersOf_unique a1 b1
          have hnd := membersOf_nodup a1
          have hmem : ∀ m ∈ l, m ∈ tried2 ↔ m ∈ tried ∧ ¬ Hidden o.allowList o.denyList m.name := by
            intro m hm
            rw [b3 m hm, a3 m hm, leftOut_un]
            exact ⟨fun h => ⟨fun h' => h (.inr h'), fun h' => h (.inl h')⟩, fun h h' => h'.elim h.2 h.1⟩
          have hc : ∀ m ∈ tried2, Trimmed o (c m) (c2 m) := by
            intro m hm2
            have hm := ((hmem m (b2.subset hm2)).mp hm2).1
            have e1 := fieldAt_unique (a4 m hm) (b4 m hm2)
            have e2 : q' m = q2 m := Bool.eq_iff_iff.mpr ((a5 m hm).trans (b5 m hm2).symm)
            have w1 := a6 m hm
            have w2 := b6 m hm2
            rw [← e1, ← e2] at w2
            obtain ⟨_, _, _, _, _, hpath, hprom, -⟩ := (a1.2 m).mp (a2.subset hm)
            have hw := fieldAt_type G (a4 m hm) hst ht (promoted_type hst hprom)
            exact ih _ _ _ _ _ _ (hn ▸ fieldAt_size (a4 m hm)) hw.1 (hd.part hw.2) w1 w2
          have hkept : ∀ m ∈ l, m ∈ kept2 ↔ m ∈ kept ∧ ¬ Hidden o.allowList o.denyList m.name := by
            intro m hm
            constructor
            · intro h2
              have ht2 := b7.subset h2
              obtain ⟨h1, hh⟩ := (hmem m hm).mp ht2
              refine ⟨(a8 m h1).mpr fun hd => (b8 m ht2).mp h2 ⟨hd.1, hd.2.1, (trimmed_null (hc m ht2)).mp hd.2.2⟩, hh⟩
            · rintro ⟨h1, hh⟩
              have ht1 := a7.subset h1
              have ht2 := (hmem m hm).mpr ⟨ht1, hh⟩
              exact (b8 m ht2).mpr fun hd => (a8 m ht1).mp h1 ⟨hd.1, hd.2.1, (trimmed_null (hc m ht2)).mpr hd.2.2⟩
          have hsub : kept2.Sublist kept := by
            have hdec : ∀ m : MField, Decidable (Hidden o.allowList o.denyList m.name) := fun _ => Classical.propDecidable _
            have e : kept2 = kept.filter (fun m => decide (¬ Hidden o.allowList o.denyList m.name)) := by
              refine sublist_unique hnd (b7.trans b2) (List.filter_sublist.trans (a7.trans a2)) fun m hm => ?_
              rw [hkept m hm, List.mem_filter]
              simp
            rw [e]
            exact List.filter_sublist
          have hlead : ∀ {tr kp : List MField} {c : Bytes}, Lead tr kp c → c = [] ∨ c = b! "," := by
            intro _ _ _ h
            cases h with
            | none => exact .inl rfl
            | comma => exact .inr rfl
          have e : kept2.map (fun m => b! "\"" ++ key2 m ++ b! "\":" ++ c2 m) = kept2.map (fun m => b! "\"" ++ key m ++ b! "\":" ++ c2 m) :=
            List.map_congr_left fun m hm => by rw [namedAs_unique (namedAs_un (a9 m (hsub.subset hm))) (b9 m hm)]
          rw [e]
          refine .members ?_ hsub (fun m hm => ?_) (fun m hm => namedAs_un (a9 m hm)) (fun m hm => hc m (b7.subset hm)) (hlead a10) (hlead b10)
          · have hl := hnd.sublist (a7.trans a2)
            refine List.pairwise_map.mpr (List.Pairwise.imp_of_mem (fun {a b} ha hb hne e => hne ?_) hl)
            exact chosen_eq hst ((a1.2 a).mp (a2.subset (a7.subset ha))) ((a1.2 b).mp (a2.subset (a7.subset hb))) e
          · rw [hkept m (a2.subset (a7.subset hm))]
            exact ⟨fun h => h.2, fun h => ⟨hm, h⟩⟩
    · exact same_trim (same_meth hP hs hm h h')

/-- C74: the text with the lists is that without them, less the members that are hidden. -/
theorem C74_text (G : GoTypes W.E W.ptrTo) (hT : StdText W.E) (hP : PathFree M) (hu : bmHas o.flags .unsortedMap = false) (ht : HasType W.E t v)
    (hd : KeysDiffer W M o t v) (h : Writes W M (unlisted o) t ca q v b) (h' : Writes W M o t ca q v b') : Trimmed o b b' := by
  have key : ∀ n, TrimBelow W M o n := by
    intro n
    induction n with
    | zero => intro _ _ _ _ _ _ h; exact absurd h (Nat.not_lt_zero _)
    | succ n ihn =>
      intro t ca q v b b' hl ht hd h h'
      exact trim_step G hT hP hu (n := sizeOf v) (fun _ _ _ _ _ _ hs => ihn _ _ _ _ _ _ (by omega)) rfl ht hd h h'
  exact key _ _ _ _ _ _ _ (Nat.lt_succ_self _) ht hd h h'

theorem apply_un (o : EncOpts) (opts : List (Option Opt)) : (unlisted o).apply (withoutLists opts) = unlisted (o.apply opts) := by
  induction opts generalizing o with
  | nil => rfl
  | cons x opts ih =>
    cases x with
    | none => exact ih o
    | some f =>
      cases f with
      | allowList l => exact ih (Opt.run (.allowList l) o)
      | denyList l => exact ih (Opt.run (.denyList l) o)
      | flag f => exact ih (Opt.run (.flag f) o)
      | timeLayout l => exact ih (Opt.run (.timeLayout l) o)
      | durationFormat f => exact ih (Opt.run (.durationFormat f) o)
      | withContext c => exact ih (Opt.run (.withContext c) o)

/-- C74: the same call without the lists is one with the same settings but for them. -/
theorem C74_options {opts : List (Option Opt)} (ho : prepare opts = .ok o) : prepare (withoutLists opts) = .ok (unlisted o) := by
  have ha := apply_un defaultEncOpts opts
  rw [show unlisted defaultEncOpts = defaultEncOpts from rfl] at ha
  have hp : ∀ {l : List (Option Opt)} {o : EncOpts}, prepare l = .ok o → o = defaultEncOpts.apply l ∧ (defaultEncOpts.apply l).validate = none := by
    intro l o h
    unfold prepare at h
    split at h
    · simp only at h
      split at h
      · cases h
      · cases h; exact ⟨rfl, ‹_›⟩
    · have : l = [] := List.length_eq_zero_iff.mp (by omega)
      subst this
      cases h; exact ⟨rfl, by decide⟩
  obtain ⟨rfl, hv⟩ := hp ho
  have hv' : (defaultEncOpts.apply (withoutLists opts)).validate = none := by rw [ha]; exact hv
  unfold prepare
  split
  · rw [ha] at hv'
    simp only [ha, hv']
  · have : withoutLists opts = [] := List.length_eq_zero_iff.mp (by omega)
    rw [this] at ha
    rw [← ha]; rfl

/-- C74: so for calls. What `Marshal` returns with the lists is what it returns without them, less
the members that are hidden; and so for what `Append` appends. -/
theorem C74_calls {H : Heap} (D : WriteReady W H M) (hT : StdText W.E) (hP : PathFree M) {w : Addr} (hx : ReprE W.E H.mem (some (t, w)) (.iface t v))
    (hf : TimesFine W t v) (hd : KeysDiffer W M o t v) (hu : bmHas o.flags .unsortedMap = false) {opts : List (Option Opt)}
    (ho : prepare opts = .ok o) {n n0 : Nat} :
    (∀ b b', marshalOpts W H n0 (some (t, w)) (withoutLists opts) = .ret (some b) none → marshalOpts W H n (some (t, w)) opts = .ret (some b') none → Trimmed o b b') ∧
    (∀ dst dst' out out', appendOpts W H n0 dst (some (t, w)) (withoutLists opts) = .ret (some out) none →
      appendOpts W H n dst' (some (t, w)) opts = .ret (some out') none → ∃ b b', out = dst ++ b ∧ out' = dst' ++ b' ∧ Trimmed o b b') := by
  have ht : HasType W.E t v := by
    cases repr_inIface hx with
    | val h => exact h
  have ho0 := C74_options ho
  refine ⟨fun b b' h h' => C74_text D.ready.types hT hP hu ht hd ((C56_bytes D hx hf ho0).1 b h) ((C56_bytes D hx hf ho).1 b' h'), ?_⟩
  intro dst dst' out out' h h'
  obtain ⟨b, e, g⟩ := (C56_bytes D hx hf ho0).2 dst out h
  obtain ⟨b', e', g'⟩ := (C56_bytes D hx hf ho).2 dst' out' h'
  exact ⟨b, b', e, e', C74_text D.ready.types hT hP hu ht hd g g'⟩

/-! ## Errors -/

theorem encodes_un {t' : TId} {ca' : Bool} {v' : Val} (h : Encodes W o t ca v t' ca' v') : Encodes W (unlisted o) t ca v t' ca' v' := by
  induction h with
  | refl => exact .refl
  | step h1 _ ih =>
    refine .step ?_ ih
    cases h1 with
    | ptr h1 h2 => exact .ptr h1 h2
    | iface h1 h2 => exact .iface h1 h2
    | slice h1 h2 h3 h4 => exact .slice h1 h2 h3 h4
    | array h1 h2 h3 h4 => exact .array h1 h2 h3 h4
    | key h1 h2 h3 h4 h5 h6 => exact .key h1 h2 h3 h4 h5 h6
    | elem h1 h2 h3 h4 => exact .elem h1 h2 h3 h4
    | field h1 h2 h3 h4 h5 => exact .field h1 h2 h3 (fun h => h4 (leftOut_un.mpr (.inr h))) h5
    | skey h1 h2 h3 h4 h5 => exact .skey h1 h2 h3 h4 h5
    | selem h1 h2 h3 => exact .selem h1 h2 h3

theorem argCtx_un (m : MethKind) : argCtx (unlisted o) m = argCtx o m := by cases m <;> rfl

theorem fault_un {e : Err} (h : Fault W M o t ca v e) : Fault W M (unlisted o) t ca v e := by
  cases h with
  | float h1 h2 h3 => exact .float h1 h2 h3
  | seconds h1 h2 h3 => exact .seconds h1 h2 h3
  | minutes h1 h2 h3 => exact .minutes h1 h2 h3
  | number h1 h2 h3 h4 => exact .number h1 h2 h3 h4
  | time h1 h2 => exact .time h1 h2
  | typ h1 h2 => exact .typ h1 h2
  | method h1 h2 h3 h4 => exact .method h1 h2 h3 (by rw [argCtx_un]; exact h4)
  | malformed h1 h2 h3 h4 h5 h6 => exact .malformed h1 h2 h3 h4 h5 h6
  | nilKey h1 h2 h3 => exact .nilKey h1 h2 h3
  | badKey h1 h2 h3 h4 => exact .badKey h1 h2 h3 h4

theorem shortKey_un (h : ShortKey W M o t ca v) : ShortKey W M (unlisted o) t ca v := by
  cases h with
  | time h1 h2 h3 h4 h5 h6 => exact .time h1 h2 h3 h4 h5 h6
  | append h1 h2 h3 h4 h5 h6 h7 => exact .append h1 h2 h3 h4 h5 (by rw [argCtx_un]; exact h6) h7
  | verbatim h1 h2 h3 h4 h5 h6 h7 => exact .verbatim h1 h2 h3 h4 h5 h6 h7
  | json h1 h2 h3 h4 h5 h6 h7 h8 => exact .json h1 h2 h3 h4 h5 h6 h7 h8

theorem trap_un (h : Trap W M o t ca v) : Trap W M (unlisted o) t ca v := by
  cases h with
  | nilElem h1 h2 h3 => exact .nilElem h1 h2 h3
  | method h1 h2 h3 h4 => exact .method h1 h2 h3 (by rw [argCtx_un]; exact h4)
  | key h1 h2 h3 h4 h5 h6 => exact .key h1 h2 h3 h4 h5 (shortKey_un h6)
  | skey h1 h2 h3 h4 h5 h6 => exact .skey h1 h2 h3 h4 h5 (shortKey_un h6)

/-- C74: the lists are never the reason for an error or a panic. If a call succeeds without them, the
same call with them does. -/
theorem C74_success {g n : Nat} {S : List TId} {c : Call} (hc : FiniteCall W g n c S M) (D : FaultReady (c.world W) c.heap M) (hP : PathFree M) {w : Addr}
    (hv : c.value = some (t, w)) (hx : ReprE W.E c.heap.mem (some (t, w)) (.iface t v)) {opts : List (Option Opt)} (ho : prepare opts = .ok o)
    {n0 : Nat} {r : Option Bytes} (h : marshalOpts (c.world W) c.heap n0 (some (t, w)) (withoutLists opts) = .ret r none) :
    ∃ b', marshalOpts (c.world W) c.heap n (some (t, w)) opts = .ret (some b') none := by
  refine (C51_iff hc D hP hv hx ho).mpr fun t' ca' v' he => ?_
  obtain ⟨h1, h2⟩ := C51_noticed D hP hx (C74_options ho) n0 [] (.inl ⟨_, h⟩) t' ca' v' (encodes_un he)
  exact ⟨fun e hf => h1 e (fault_un hf), fun ht => h2 (trap_un ht)⟩

/-- C74: and an error with the lists is about a part that is encoded without them too, for the same
reason. -/
theorem C74_error {H : Heap} (D : FaultReady W H M) {w : Addr} (hx : ReprE W.E H.mem (some (t, w)) (.iface t v)) {opts : List (Option Opt)}
    (ho : prepare opts = .ok o) {n : Nat} {r : Option Bytes} {e : Err} (h : marshalOpts W H n (some (t, w)) opts = .ret r (some (.encoding e))) :
    ∃ t' ca' v', Encodes W (unlisted o) t (isPtrK (W.E t).kind) v t' ca' v' ∧ Fault W M (unlisted o) t' ca' v' e := by
  obtain ⟨t', ca', v', h1, h2⟩ := C51_cause D hx ho n [] (.inl ⟨_, h⟩)
  exact ⟨t', ca', v', encodes_un h1, fault_un h2⟩

end Jettison.Props
