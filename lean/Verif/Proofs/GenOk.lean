import Verif.Proofs.Owned
import Verif.Proofs.Select

/-!
# Generation with caches gives the instructions of the model
-/

namespace Jettison.Proofs
open Jettison Jettison.Model Jettison.Spec

variable {W : World} {X : Prop} {S : List TId} {rk : TId → Nat} {α β : Type}

/-- The state of the call is as before. -/
def Same (h : Frag) (w : Owed) (P : Known → α → Prop) : PostC α := fun K' h' w' a => h' = h ∧ w' = w ∧ P K' a

theorem good_step {D : Prop} {h : Frag} {w : Owed} {P : Known → α → Prop} {Post : PostC β} {p : Prog α} {f : α → Prog β} {K : Known}
    (hg : Meets W D (Same h w P) p K h w) (hf : ∀ K' a, K.Le K' → P K' a → Meets W D Post (f a) K' h w) : Meets W D Post (p >>= f) K h w :=
  good_bind (good_mono (fun K' h' w' a hl hp hk => by obtain ⟨rfl, rfl, hp⟩ := hp; exact hf K' a hk hp) hg)

/-- A finite set of types with all that generating their instructions meets; the rank falls from a type to
its element and key types. -/
structure Fit (W : World) (S : List TId) (rk : TId → Nat) : Prop where
  bound : ∀ t ∈ S, rk t < W.tfuel
  parts : ∀ t ∈ S, ∀ u, PartOf W.E u t → u ∈ S ∧ rk u < rk t
  fields : ∀ t ∈ S, IsStruct W.E t → ∃ l, structFields W.E W.U W.grow W.sort W.tfuel t = some l ∧ ∀ f ∈ l, ∃ u, typeByIndex W.E t f.index = some u ∧ u ∈ S

/-- As many structs as there are types may still be entered. -/
def Room (S : List TId) (g : Nat) (K : Known) : Prop :=
  ∃ ks : List (TId × Bool), ks.Nodup ∧ (∀ k ∈ ks, k.1 ∈ S ∧ k ∈ K.slots) ∧ 2 * S.length < g + ks.length

theorem room_le {g : Nat} {K K' : Known} (h : K.Le K') (hr : Room S g K) : Room S g K' := by
  obtain ⟨ks, h1, h2, h3⟩ := hr
  exact ⟨ks, h1, fun k hk => ⟨(h2 k hk).1, h.slots.subset (h2 k hk).2⟩, h3⟩

theorem room_start {g : Nat} (K : Known) (h : 2 * S.length < g) : Room S g K := ⟨[], List.nodup_nil, by simp, by simpa using h⟩

theorem room_next {g : Nat} {K : Known} {k : TId × Bool} (hk : k.1 ∈ S) (hn : k ∉ K.slots) (hr : Room S (g + 1) K) :
    Room S g { K with slots := K.slots ++ [k] } := by
  obtain ⟨ks, h1, h2, h3⟩ := hr
  refine ⟨k :: ks, List.nodup_cons.mpr ⟨fun h => hn (h2 k h).2, h1⟩, ?_, by simp only [List.length_cons]; omega⟩
  intro k' hk'
  rcases List.mem_cons.mp hk' with rfl | hk'
  · exact ⟨hk, by simp⟩
  · exact ⟨(h2 _ hk').1, by simp [(h2 _ hk').2]⟩

theorem room_zero {K : Known} (hr : Room S 0 K) : False := by
  obtain ⟨ks, h1, h2, h3⟩ := hr
  have := nodup_subset_length ks (S.map (·, true) ++ S.map (·, false)) h1 (by
    rintro ⟨t, b⟩ hk
    have := (h2 _ hk).1
    cases b <;> simp [this])
  simp at this
  omega

/-- `newInstruction` up to a bound. -/
def GenOk (W : World) (X : Prop) (S : List TId) (rk : TId → Nat) (g k : Nat) (gen : TId → Bool → Bool → Prog CInstr) : Prop :=
  ∀ K h w t ca q, (¬X → t ∈ S ∧ rk t < k ∧ Room S g K) → Meets W X (Same h w fun K' c => ∃ i, newInstruction W.E k t ca q = some i ∧ Den K' c i) (gen t ca q) K h w

def StructOk (W : World) (X : Prop) (S : List TId) (g : Nat) (mk : TId → Bool → Prog CInstr) : Prop :=
  ∀ K h w t ca, (¬X → t ∈ S ∧ IsStruct W.E t ∧ Room S g K) → Meets W X (Same h w fun K' c => Den K' c (.struct t ca)) (mk t ca) K h w

theorem den_wrapKey {K : Known} {E : Env} {kt : TId} {c : CInstr} {i : Instr} (h : Den K c i) : Den K (wrapKeyC E kt c) (wrapKey E kt i) := by
  simp only [wrapKeyC, wrapKey]
  split <;> split
  · exact ⟨_, rfl, _, rfl, h⟩
  · exact ⟨_, rfl, h⟩
  · exact ⟨_, rfl, h⟩
  · exact h

theorem den_basic {K : Known} {k : Kind} {q : Bool} {i : Instr} (h : newBasicTypeInstr k q = some i) : Den K (.ofBasic i) i := by
  cases k <;> simp [newBasicTypeInstr] at h <;> cases q <;> simp at h <;> subst h <;>
    first | exact ⟨rfl, rfl⟩ | exact ⟨_, rfl, rfl, rfl⟩

theorem newInstructionK_ok {mk : TId → Bool → Prog CInstr} {g : Nat} (fit : ¬X → Fit W S rk) (hs : StructOk W X S g mk) : ∀ k, GenOk W X S rk g k (newInstructionK W mk k)
  | 0 => fun K h w t ca q hr => Classical.byContradiction fun hx => by have := (hr hx).2.1; omega
  | k + 1 => by
    intro K h w t ca q hr
    have ih := newInstructionK_ok fit hs k
    have sub : ∀ {u : TId} {K' : Known}, PartOf W.E u t → K.Le K' → ¬X → u ∈ S ∧ rk u < k ∧ Room S g K' := by
      intro u K' hp hl hx
      obtain ⟨h1, h2, h3⟩ := hr hx
      obtain ⟨h4, h5⟩ := (fit hx).parts t h1 u hp
      exact ⟨h4, by omega, room_le hl h3⟩
    simp only [newInstructionK, newInstruction]
    have leaf : ∀ (i : Instr), isLeafI i = true → Meets W X (Same h w fun K' c => ∃ j, some i = some j ∧ Den K' c j) (.ret (.leaf i)) K h w :=
      fun i hi => good_ret fun K' _ => ⟨rfl, rfl, i, rfl, rfl, hi⟩
    cases hg : newGoTypeInstr W.E t with
    | some i =>
      refine leaf i ?_
      simp only [newGoTypeInstr, Option.map_eq_some_iff] at hg
      obtain ⟨s, -, rfl⟩ := hg
      rfl
    | none =>
    cases hm : newMarshalerTypeInstr W.E t ca with
    | some i =>
      refine leaf i ?_
      simp only [newMarshalerTypeInstr] at hm
      repeat' split at hm
      all_goals first | (cases hm; rfl) | cases hm
    | none =>
    cases hb : newBasicTypeInstr (W.E t).kind q with
    | some i => exact good_ret fun K' _ => ⟨rfl, rfl, i, rfl, den_basic hb⟩
    | none =>
      simp only
      cases hk : (W.E t).kind with
      | iface n => exact good_ret fun K' _ => ⟨rfl, rfl, _, rfl, rfl⟩
      | struct fs => exact good_mono (fun K' h' w' c _ hp => ⟨hp.1, hp.2.1, _, rfl, hp.2.2⟩) (hs K h w t ca fun hx => ⟨(hr hx).1, ⟨_, hk⟩, (hr hx).2.2⟩)
      | map kt et =>
        simp only
        split
        · exact leaf _ rfl
        · refine good_step (P := fun K' c => ∃ i, (if isStringK (W.E kt).kind then some Instr.string else newInstruction W.E k kt false false) = some i ∧ Den K' c i) ?_ ?_
          · simp only [keyInstrP]
            split
            · exact good_ret fun K' _ => ⟨rfl, rfl, _, rfl, rfl, rfl⟩
            · exact ih _ _ _ _ _ _ (sub (.key hk) (.refl K))
          · rintro K1 ck h1 ⟨ik, hik, hdk⟩
            refine good_step (ih _ _ _ _ _ _ (sub (.val hk) h1)) ?_
            rintro K2 cv h2 ⟨iv, hiv, hdv⟩
            exact good_pure fun K' h' => ⟨rfl, rfl, .map t (wrapKey W.E kt ik) iv, by rw [hik, hiv], _, _, rfl, den_wrapKey (den_le (h2.trans h') hdk), den_le h' hdv⟩
      | slice e =>
        simp only
        split
        · exact leaf _ rfl
        · refine good_step (ih _ _ _ _ _ _ (sub (.slice hk) (.refl K))) ?_
          rintro K1 c h1 ⟨i, hi, hd⟩
          exact good_pure fun K' h' => ⟨rfl, rfl, .slice i _, by rw [hi]; rfl, _, rfl, den_le h' hd⟩
      | array n e =>
        simp only
        refine good_step (ih _ _ _ _ _ _ (sub (.array hk) (.refl K))) ?_
        rintro K1 c h1 ⟨i, hi, hd⟩
        exact good_pure fun K' h' => ⟨rfl, rfl, .array i _ _ _, by rw [hi]; rfl, _, rfl, den_le h' hd⟩
      | ptr e =>
        simp only
        refine good_step (ih _ _ _ _ _ _ (sub (.ptr hk) (.refl K))) ?_
        rintro K1 c h1 ⟨i, hi, hd⟩
        exact good_pure fun K' h' => ⟨rfl, rfl, .ptr i, by rw [hi]; rfl, _, rfl, den_le h' hd⟩
      | _ => exact leaf _ rfl

theorem cachedFields_ok (K : Known) (h : Frag) (w : Owed) (t : TId) (hf : ¬X → ∃ l, structFields W.E W.U W.grow W.sort W.tfuel t = some l) :
    Meets W X (Same h w fun _ l => structFields W.E W.U W.grow W.sort W.tfuel t = some l) (cachedFields W t) K h w := by
  refine good_call fun K1 h1 => ⟨?_, fun l hl => ?_⟩
  · simp only
    split
    · next hn => exact Classical.byContradiction fun hx => by obtain ⟨l, hl⟩ := hf hx; rw [hn] at hl; cases hl
    · next l hl => exact good_callLast fun K2 h2 => ⟨hl, fun K3 h3 => ⟨rfl, rfl, hl⟩⟩
  · exact good_pure fun K' _ => ⟨rfl, rfl, hl⟩

theorem cachedEmpty_ok (K : Known) (h : Frag) (w : Owed) (t : TId) :
    Meets W X (Same h w fun _ f => f = emptyFuncOf (W.E t).kind) (cachedEmptyFuncOf W t) K h w := by
  refine good_call fun K1 h1 => ⟨?_, ?_⟩
  · exact good_callLast fun K2 h2 => ⟨rfl, fun K3 h3 => ⟨rfl, rfl, rfl⟩⟩
  · exact good_pure fun K' _ => ⟨rfl, rfl, rfl⟩

theorem newField_ok {gen : TId → Bool → Bool → Prog CInstr} {g : Nat} (fit : ¬X → Fit W S rk) (hg : GenOk W X S rk g W.tfuel gen) (K : Known) (h : Frag) (w : Owed) (t : TId) (ca : Bool) (f : Fld)
    (hf : ¬X → (∃ u, typeByIndex W.E t f.index = some u ∧ u ∈ S) ∧ Room S g K) :
    Meets W X (Same h w fun K' c => ∃ i, newFieldInstr W.E W.tfuel t ca f = some (c.with i) ∧ Den K' c.instr i) (newFieldInstrP W gen t ca f) K h w := by
  simp only [newFieldInstrP, newFieldInstr]
  cases hft : typeByIndex W.E t f.index with
  | none => exact Classical.byContradiction fun hx => by obtain ⟨⟨u, hu, -⟩, -⟩ := hf hx; rw [hft] at hu; cases hu
  | some ftyp =>
    simp only
    refine good_step (hg _ _ _ _ _ _ fun hx => ?_) ?_
    · obtain ⟨⟨u, hu, hm⟩, hr⟩ := hf hx
      rw [hft] at hu
      cases hu
      exact ⟨hm, (fit hx).bound _ hm, hr⟩
    rintro K1 c h1 ⟨i, hi, hd⟩
    rw [hi]
    cases he : f.omitEmpty with
    | true =>
      simp only [if_true]
      refine good_step (cachedEmpty_ok _ _ _ _) ?_
      rintro K2 e h2 rfl
      exact good_pure fun K' h' => ⟨rfl, rfl, i, rfl, den_le (h2.trans h') hd⟩
    | false =>
      simp only [Bool.false_eq_true, if_false]
      exact good_pure fun K' h' => ⟨rfl, rfl, i, rfl, den_le h' hd⟩

theorem newFields_ok {gen : TId → Bool → Bool → Prog CInstr} {g : Nat} (fit : ¬X → Fit W S rk) (hg : GenOk W X S rk g W.tfuel gen) (h : Frag) (w : Owed) (t : TId) (ca : Bool) : ∀ (fs : List Fld) (K : Known),
    (¬X → (∀ f ∈ fs, ∃ u, typeByIndex W.E t f.index = some u ∧ u ∈ S) ∧ Room S g K) →
    Meets W X (Same h w fun K' l => ∃ l', fs.mapM (newFieldInstr W.E W.tfuel t ca) = some l' ∧ DenFs K' l l') (newFieldInstrsP W gen t ca fs) K h w
  | [], K, _ => good_ret fun K' _ => ⟨rfl, rfl, [], rfl, rfl⟩
  | f :: fs, K, hf => by
    refine good_step (newField_ok fit hg K h w t ca f fun hx => ⟨(hf hx).1 f List.mem_cons_self, (hf hx).2⟩) ?_
    rintro K1 c h1 ⟨i, hi, hd⟩
    refine good_step (newFields_ok fit hg h w t ca fs K1 fun hx => ⟨fun f' hf' => (hf hx).1 f' (List.mem_cons_of_mem _ hf'), room_le h1 (hf hx).2⟩) ?_
    rintro K2 l h2 ⟨l', hl, hds⟩
    refine good_pure fun K' h' => ⟨rfl, rfl, c.with i :: l', ?_, i, l', rfl, den_le (h2.trans h') hd, denFs_le h' hds⟩
    simp only [List.mapM_cons, hi, hl]; rfl

theorem newStructFields_ok {gen : TId → Bool → Bool → Prog CInstr} {g : Nat} (fit : ¬X → Fit W S rk) (hg : GenOk W X S rk g W.tfuel gen) (K : Known) (h : Frag) (w : Owed) (t : TId) (ca : Bool) (ht : ¬X → t ∈ S ∧ IsStruct W.E t ∧ Room S g K) :
    Meets W X (Same h w fun K' c => DenC W K' (t, ca) c) (newStructFieldsP W gen t ca) K h w := by
  simp only [newStructFieldsP, DenC]
  split
  · exact good_ret fun K' _ => ⟨rfl, rfl, rfl⟩
  · refine good_step (cachedFields_ok _ _ _ _ fun hx => ?_) ?_
    · obtain ⟨h1, h2, -⟩ := ht hx
      obtain ⟨l, hl, -⟩ := (fit hx).fields t h1 h2
      exact ⟨l, hl⟩
    intro K1 flds h1 hf
    refine good_step (newFields_ok fit hg h w t ca flds K1 fun hx => ?_) ?_
    · obtain ⟨a1, a2, a3⟩ := ht hx
      obtain ⟨l, hl, hm⟩ := (fit hx).fields t a1 a2
      rw [hf] at hl
      cases hl
      exact ⟨hm, room_le h1 a3⟩
    rintro K2 l h2 ⟨l', hl, hd⟩
    exact good_pure fun K' h' => ⟨rfl, rfl, l, l', rfl, by simp only [structFieldsInstr, hf]; exact hl, denFs_le h' hd⟩

theorem newStruct_ok {gen : TId → Bool → Bool → Prog CInstr} {g : Nat} (fit : ¬X → Fit W S rk) (hg : GenOk W X S rk g W.tfuel gen) : StructOk W X S (g + 1) (newStructInstrP W gen) := by
  intro K h w t ca hr0
  refine good_call fun K1 h1 => ⟨?_, fun r hr => ?_⟩
  · refine good_call fun K2 h2 => ⟨fun r hr => ?_, fun hnew => ?_⟩
    · cases r <;> exact good_pure fun K' h' => ⟨rfl, rfl, t, ca, refKey_le h' hr, rfl⟩
    · have hslot : (K2.slots ++ [(t, ca)])[K2.slots.length]? = some (t, ca) := by simp
      refine good_step (newStructFields_ok fit hg _ _ _ t ca fun hx => ⟨(hr0 hx).1, (hr0 hx).2.1, room_next (hr0 hx).1 hnew (room_le (h1.trans h2) (hr0 hx).2.2)⟩) ?_
      intro K3 c h3 hc
      refine good_call fun K4 h4 => ⟨(t, ca), denC_le h4 hc, ?_⟩
      have hcl : (K4.closures ++ [(t, ca)])[K4.closures.length]? = some (t, ca) := by simp
      refine good_call fun K5 h5 => ⟨none, w, (t, ca), rfl, prefix_get ((h3.trans (h4.trans (le_closure K4 (t, ca)))).trans h5).slots hslot,
        prefix_get h5.closures hcl, ?_⟩
      refine good_call fun K6 h6 => ⟨_, w, rfl, ?_⟩
      have hcl6 := prefix_get h6.closures (prefix_get h5.closures hcl)
      refine good_call fun K7 h7 => ⟨prefix_get h7.closures hcl6, ?_⟩
      exact good_pure fun K' h' => ⟨rfl, rfl, t, ca, prefix_get h'.closures (prefix_get h7.closures hcl6), rfl⟩
  · exact good_pure fun K' h' => ⟨rfl, rfl, t, ca, refKey_le h' hr, rfl⟩

theorem newInstruction_ok (fit : ¬X → Fit W S rk) : ∀ g, GenOk W X S rk g W.tfuel (newInstructionP W g)
  | 0 => newInstructionK_ok (mk := fun _ _ => .crash) fit (fun _ _ _ _ _ hr => Classical.byContradiction fun hx => room_zero (hr hx).2.2) _
  | g + 1 => newInstructionK_ok fit (newStruct_ok fit (newInstruction_ok fit g)) _

theorem cachedInstr_ok (fit : ¬X → Fit W S rk) (g : Nat) (K : Known) (h : Frag) (w : Owed) (t : TId) (ht : ¬X → t ∈ S ∧ 2 * S.length < g) :
    Meets W X (Same h w fun K' c => ∃ i, instrFor W.E W.tfuel t = some i ∧ Den K' c i) (cachedInstr W g t) K h w := by
  refine good_call fun K1 h1 => ⟨?_, fun c i hi hd => ?_⟩
  · refine good_step (newInstruction_ok fit g _ _ _ _ _ _ fun hx => ⟨(ht hx).1, (fit hx).bound _ (ht hx).1, room_start _ (ht hx).2⟩) ?_
    rintro K2 c h2 ⟨i, hi, hd⟩
    have key : ∃ j, instrFor W.E W.tfuel t = some j ∧ Den K2 (if isInlined W.E W.tfuel t then .inline c else c) j := by
      simp only [instrFor, hi]
      refine ⟨_, rfl, ?_⟩
      split
      · exact ⟨_, rfl, hd⟩
      · exact hd
    obtain ⟨j, hj, hdj⟩ := key
    refine good_call fun K3 h3 m hm => ?_
    refine good_call fun K4 h4 => ⟨?_, ?_⟩
    · intro t' c' hmem
      simp only [List.mem_cons, Prod.mk.injEq] at hmem
      rcases hmem with ⟨rfl, rfl⟩ | hmem
      · exact ⟨j, hj, den_le (h3.trans h4) hdj⟩
      · obtain ⟨i', hi', hd'⟩ := hm t' c' hmem
        exact ⟨i', hi', den_le h4 hd'⟩
    · exact good_pure fun K' h' => ⟨rfl, rfl, j, hj, den_le ((h3.trans h4).trans h') hdj⟩
  · exact good_pure fun K' h' => ⟨rfl, rfl, i, hi, den_le h' hd⟩

end Jettison.Proofs
