import Verif.Spec.Held
import Verif.Proofs.Twin
import Verif.Props.Maps
import Verif.Props.MapsEx

/-!
C39: when a `sync.Map` is encoded like a map with the same entries.
-/

namespace Jettison.Props

open Jettison Jettison.Spec Jettison.Model Jettison.Proofs

variable {W : World} {H : Heap} {M : MethV} {o : EncOpts} {t : TId} {ca q : Bool} {i : Instr} {p : Loc} {v : Val}

/-- Elements of maps and values in interfaces have the same instruction. -/
theorem elem_instr {E : Env} {t : TId} {k k' : Nat} {i j : Instr} (hi : newInstruction E k t false false = some i)
    (hj : newInstruction E k' t (isPtrK (E t).kind) false = some j) : i = j := by
  cases hp : isPtrK (E t).kind with
  | false => rw [hp] at hj; exact newInstruction_det hi hj
  | true =>
    rw [hp] at hj
    refine newInstruction_det hi (m := k') ?_
    cases k' with
    | zero => cases hj
    | succ k' =>
      have hm : newMarshalerTypeInstr E t true = newMarshalerTypeInstr E t false := by
        simp only [newMarshalerTypeInstr, hp]; simp
      simp only [newInstruction, hm] at hj ⊢
      cases hk : (E t).kind with
      | ptr e => rw [hk] at hj; exact hj
      | _ => rw [hk] at hp; cases hp

/-- A value of a type in an interface is encoded with the instruction of the type. -/
theorem iface_less {kt : TId} {k1 : Nat} {ki : Instr} (hki : newInstruction W.E k1 kt false false = some ki) (m : Nat) (path : Path) (x : Val) (dst : Bytes) :
    Less (appendJSONV W (runV W M o m) path (.iface kt x) dst) (runV W M o m path ki x dst) := by
  simp only [appendJSONV]
  cases hi : instrFor W.E W.tfuel kt with
  | none => exact .inl rfl
  | some j =>
    simp only [instrFor] at hi
    split at hi
    · cases hi
    · next j' hj' =>
      rw [elem_instr hki hj']
      simp only [Option.some.injEq] at hi
      subst hi
      dsimp only
      split
      · cases m with
        | zero => exact .inl rfl
        | succ m => exact runV_lessM (i := j') (by omega) _ _ _
      · exact .inr rfl

theorem key_less (R : Ready W H M) {kt : TId} (hkey : KeyType W.E kt) {k1 : Nat} {ki : Instr}
    (hki : (if isStringK (W.E kt).kind then some .string else newInstruction W.E k1 kt false false) = some ki) {x : Val} (hty : HasType W.E kt x)
    (hn : (∃ e, (W.E kt).kind = .ptr e) → x ≠ .nil) (m : Nat) (path : Path) (dst : Bytes) :
    Less (appendSyncMapKeyV W o (runV W M o m) path (.iface kt x) dst) (runV W M o (m + 2) path (wrapKey W.E kt ki) x dst) := by
  have hrun : ∀ n path i x dst, runV W M o (n + 1) path i x dst = execV W M o (runV W M o n) path i x dst := fun _ _ _ _ _ => rfl
  by_cases hs : (W.E kt).kind = .string
  · obtain ⟨s, hse⟩ := has_str R.types hs hty
    simp only [hs, isStringK, if_true, Option.some.injEq] at hki
    subst hki
    have hw : wrapKey W.E kt .string = .string := by simp [wrapKey, hs, isStringK, isPtrK]
    rw [hse, hw, hrun]
    simp only [appendSyncMapKeyV, hs, isStringK, isInteger, Bool.not_true, Bool.false_and, Bool.false_eq_true, if_false, if_true, execV]
    exact .inr rfl
  · have hs' : isStringK (W.E kt).kind = false := by
      cases h : (W.E kt).kind <;> simp_all [isStringK]
    simp only [hs', Bool.false_eq_true, if_false] at hki
    have hok := (mapKeyOk_iff _ _).mpr hkey
    simp only [mapKeyOk, hs', Bool.false_or, Bool.or_eq_true] at hok
    have hbase : ∀ dst, Less (appendJSONV W (runV W M o m) path (.iface kt x) dst) (runV W M o (m + 1) path ki x dst) := by
      intro dst
      rcases iface_less (o := o) (M := M) hki m path x dst with h | h
      · exact .inl h
      · rw [h]; exact runV_less _ _ _ _ _
    have hbad : ¬ (!isStringK (W.E kt).kind && !isInteger (W.E kt).kind && !(W.E kt).meths.text) = true := by
      rcases hok with h | h <;> simp [h]
    simp only [appendSyncMapKeyV]
    rw [if_neg hbad]
    simp only [hs', Bool.false_eq_true, if_false, Bool.not_false, Bool.true_and]
    cases ht : (W.E kt).meths.text with
    | false =>
      simp only [wrapKey, hs', ht, Bool.not_false, Bool.and_self, if_true, Bool.false_and, Bool.false_eq_true, if_false, hrun (m + 1)]
      simp only [execV]
      rcases hbase (dst ++ b! "\"") with h | h
      · rw [h]; exact .inl rfl
      · rw [h]; exact .inr rfl
    | true =>
      simp only [wrapKey, hs', ht, Bool.not_true, Bool.and_false, Bool.false_eq_true, if_false, Bool.true_and]
      have hb2 := hbase dst
      generalize appendJSONV W (runV W M o m) path (.iface kt x) dst = r at hb2 ⊢
      suffices h : Less r (runV W M o (m + 2) path (if isPtrK (W.E kt).kind = true then .nilText ki else ki) x dst) by
        cases r <;> exact h
      split
      · next hp =>
        have hna := hn (by
          cases hk : (W.E kt).kind with
          | ptr e => exact ⟨e, rfl⟩
          | _ => rw [hk] at hp; cases hp)
        cases x with
        | nil => exact absurd rfl hna
        | _ => rw [hrun (m + 1)]; exact hb2
      · rcases hb2 with h | h
        · exact .inl h
        · rw [h]; exact runV_less _ _ _ _ _

theorem elem_less (R : Ready W H M) {et : TId} {k1 : Nat} {vi : Instr} (hvi : newInstruction W.E k1 et false false = some vi)
    (hbe : (∃ n, (W.E et).kind = .iface n) → ByKind W.E et false) {x : Val} (hty : HasType W.E et x) (hn : (∃ n, (W.E et).kind = .iface n) → x ≠ .nil)
    (m : Nat) (path : Path) (dst : Bytes) :
    Less (appendJSONV W (runV W M o m) path (held W.E et x) dst) (runV W M o (m + 2) path vi x dst) := by
  have hrun : ∀ n path i x dst, runV W M o (n + 1) path i x dst = execV W M o (runV W M o n) path i x dst := fun _ _ _ _ _ => rfl
  unfold held
  split
  · next n het =>
    have := byKind_iface (hbe ⟨n, het⟩) het hvi
    subst this
    rcases has_iface R.types het hty with he | ⟨d, y, he, -⟩
    · exact absurd he (hn ⟨n, het⟩)
    · subst he
      rw [hrun (m + 1)]
      simp only [execV]
      exact less_cong.appendJSONV (fun path i x dst => runV_less m path i x dst) _ _ _
  · rcases iface_less (o := o) (M := M) hvi m path x dst with h | h
    · exact .inl h
    · rw [h]; exact runV_lessM (by omega) _ _ _ _

theorem visit_mem {α : Type} {path : Path} {l : List α} {a : α} (ha : a ∈ W.visit path l) : a ∈ l := by
  simp only [World.visit, List.mem_filterMap] at ha
  obtain ⟨j, -, hj⟩ := ha
  exact List.mem_of_getElem? hj

theorem visit_nil {α : Type} {path : Path} : W.visit path ([] : List α) = [] := by
  cases h : W.visit path ([] : List α) with
  | nil => rfl
  | cons a l => have := visit_mem (W := W) (path := path) (l := []) (a := a) (by rw [h]; simp); simp at this

theorem empty_entries {α : Type} (hs : SortOk W.sort) (kf vf : Nat → α → Bytes → Res) (dst : Bytes) : encodeEntries W o kf vf [] dst = .ok (dst ++ b! "{}") := by
  have hj : W.sort kvLess [] = [] := (hs.perm kvLess []).eq_nil
  simp only [encodeEntries, unsortedLoop, encodeSorted, sortedLoop, hj, joinEntries]
  cases bmHas o.flags .unsortedMap <;> simp

theorem map_entries (hs : SortOk W.sort) {n : Nat} {path : Path} {t : TId} {ki vi : Instr} {kvs : List (Val × Val)} {dst : Bytes} :
    runV W M o (n + 1) path (.map t ki vi) (.map kvs) dst = encodeEntries W o (fun j e dst => runV W M o n ((2 * j) :: path) ki e.1 dst)
      (fun j e dst => runV W M o n ((2 * j + 1) :: path) vi e.2 dst) (W.visit path kvs) dst := by
  simp only [runV, execV]
  split
  · next h0 =>
    obtain rfl := List.eq_nil_of_length_eq_zero h0
    rw [visit_nil, empty_entries hs]
  · rfl

theorem sync_entries {n : Nat} {path : Path} {kt et : TId} {kvs : List (Val × Val)} {dst : Bytes} :
    runV W M o (n + 1) path (.goType .syncMap) (heldMap W.E kt et kvs) dst =
      encodeEntries W o (fun j e dst => appendSyncMapKeyV W o (runV W M o n) ((2 * j) :: path) (.iface kt e.1) dst)
        (fun j e dst => appendJSONV W (runV W M o n) ((2 * j + 1) :: path) (held W.E et e.2) dst) (W.visit path kvs) dst := by
  simp only [runV, execV, heldMap, encodeSpecialV, visit_map, encodeEntries_map]

/-- What the theorems below are about: a map and a `sync.Map` with the same entries, in memory. -/
structure Twins (W : World) (H : Heap) (t kt et : TId) (ca q : Bool) (i : Instr) (p : Loc) (t' : TId) (ca' q' : Bool) (i' : Instr) (p' : Loc)
    (kvs : List (Val × Val)) : Prop where
  map : Stands W H t ca q i p (.map kvs)
  byKind : ByKind W.E t ca
  kind : (W.E t).kind = .map kt et
  key : KeyType W.E kt
  elem : (∃ n, (W.E et).kind = .iface n) → ByKind W.E et false
  sync : Stands W H t' ca' q' i' p' (heldMap W.E kt et kvs)
  special : (W.E t').special = some .syncMap

variable {kt et t' : TId} {ca' q' : Bool} {i' : Instr} {p' : Loc} {kvs : List (Val × Val)}

theorem Twins.instrs (R : Ready W H M) (S : Twins W H t kt et ca q i p t' ca' q' i' p' kvs) : i' = .goType .syncMap ∧
    (∃ k1 ki vi, (if isStringK (W.E kt).kind then some .string else newInstruction W.E k1 kt false false) = some ki ∧
      newInstruction W.E k1 et false false = some vi ∧ i = .map t (wrapKey W.E kt ki) vi) ∧ ∀ kv ∈ kvs, HasType W.E kt kv.1 ∧ HasType W.E et kv.2 := by
  obtain ⟨k, hm⟩ := S.map.made
  obtain ⟨k', hm'⟩ := S.sync.made
  refine ⟨?_, byKind_map S.byKind S.kind ((mapKeyOk_iff _ _).mpr S.key) hm, ?_⟩
  · cases k' with
    | zero => cases hm'
    | succ k => simp only [newInstruction, newGoTypeInstr, S.special, Option.map_some, Option.some.injEq] at hm'; exact hm'.symm
  · rcases has_map R.types S.kind (repr_hasType S.map.holds) with he | ⟨kvs', he, hks, hvs⟩
    · cases he
    · cases he; exact fun kv hkv => ⟨hks kv hkv, hvs kv hkv⟩

/-- C39: a `sync.Map` is encoded like a map with the same entries, unless a value is a nil interface or a key a nil pointer. -/
theorem C39_same_partial (R : Ready W H M) (S : Twins W H t kt et ca q i p t' ca' q' i' p' kvs) (hodd : ∀ kv ∈ kvs, ¬ OddEntry W.E kt et kv)
    {n m : Nat} {path : Path} {dst : Bytes} (h1 : run W H o n path i p dst ≠ .nofuel) (h2 : run W H o m path i' p' dst ≠ .nofuel) :
    run W H o m path i' p' dst = run W H o n path i p dst := by
  rw [stands_runV R S.map] at h1 ⊢
  rw [stands_runV R S.sync] at h2 ⊢
  obtain ⟨rfl, ⟨k1, ki, vi, hki, hvi, rfl⟩, hty⟩ := S.instrs R
  have key : Less (runV W M o m path (.goType .syncMap) (heldMap W.E kt et kvs) dst) (runV W M o (m + 2) path (.map t (wrapKey W.E kt ki) vi) (.map kvs) dst) := by
    cases m with
    | zero => exact .inl rfl
    | succ m =>
      rw [sync_entries, map_entries R.sort]
      refine less_mem (fun a ha j dst => ?_) (fun a ha j dst => ?_) dst
      · have ha := visit_mem ha
        exact key_less R S.key hki (hty a ha).1 (fun hp he => hodd a ha (.inr ⟨hp, he⟩)) m _ dst
      · have ha := visit_mem ha
        exact elem_less R hvi S.elem (hty a ha).2 (fun hp he => hodd a ha (.inl ⟨hp, he⟩)) m _ dst
  rcases key with h | h
  · exact absurd h h2
  · rw [h] at h2 ⊢
    rcases Nat.le_total n (m + 2) with hle | hle
    · exact runV_mono hle h1
    · exact (runV_mono hle h2).symm

theorem commas_len : ∀ l : List Bytes, (commas l).length = (l.map fun b => b.length + 1).sum - 1
  | [] => rfl
  | [b] => by simp [commas]
  | b :: c :: l => by
    have := commas_len (c :: l)
    simp only [commas, List.length_append, List.map_cons, List.sum_cons, List.length_cons, List.length_nil] at *
    omega

theorem perm_sum {l l' : List Nat} (h : l.Perm l') : l.sum = l'.sum := by
  induction h with
  | nil => rfl
  | cons _ _ ih => simp [ih]
  | swap => simp; omega
  | trans _ _ h1 h2 => exact h1.trans h2

/-- How long the text of a map is. -/
theorem entries_len {α : Type} {kf vf : Nat → α → Bytes → Res} (hk : ∀ n a, Pre (kf n a)) (hv : ∀ n a, Pre (vf n a)) (hs : SortOk W.sort) {l : List α}
    {dst out : Bytes} (h : encodeEntries W o kf vf l dst = .ok out) :
    ∃ ts, EntryTexts kf vf 0 l ts ∧ out.length = dst.length + 2 + ((ts.map fun t => t.1.length + t.2.length + 2).sum - 1) := by
  obtain ⟨ts, hts, h⟩ := (entries_ok hk hv l dst out).mp h
  refine ⟨ts, hts, ?_⟩
  have e : ∀ l : List (Bytes × Bytes), (l.map entryText).map (fun b => b.length + 1) = l.map fun t => t.1.length + t.2.length + 2 := by
    intro l
    rw [List.map_map]
    refine List.map_congr_left fun t _ => ?_
    simp [entryText]; omega
  rcases h with ⟨-, rfl⟩ | ⟨-, -, rfl⟩
  · simp only [List.length_append, commas_len, e, List.length_cons, List.length_nil]; omega
  · have hp := ((hs.perm kvLess (ts.map fun t => (innerKey t.1, entryText t))).map Prod.snd).map fun b : Bytes => b.length + 1
    rw [List.map_map (f := fun t : Bytes × Bytes => (innerKey t.1, entryText t))] at hp
    have hp := perm_sum hp
    rw [show (Prod.snd ∘ fun t : Bytes × Bytes => (innerKey t.1, entryText t)) = entryText from rfl, e] at hp
    simp only [List.length_append, commas_len, hp, List.length_cons, List.length_nil]; omega

theorem texts_longer {α : Type} {kf vf kf' vf' : Nat → α → Bytes → Res} (P : α → Prop) : ∀ {l : List α} {n : Nat} {ts ts' : List (Bytes × Bytes)},
    EntryTexts kf vf n l ts → EntryTexts kf' vf' n l ts' →
    (∀ a ∈ l, ∀ n b, ¬ P a → kf' n a [] = .ok b → kf n a [] = .ok b) → (∀ a ∈ l, ∀ n b, vf' n a [] = .ok b → vf n a [] = .ok b) →
    (∀ a ∈ l, ∀ n b b', P a → kf n a [] = .ok b → kf' n a [] = .ok b' → b.length < b'.length) →
    (ts.map fun t => t.1.length + t.2.length + 2).sum ≤ (ts'.map fun t => t.1.length + t.2.length + 2).sum ∧
    ((∃ a ∈ l, P a) → 0 < (ts.map fun t => t.1.length + t.2.length + 2).sum ∧ (ts.map fun t => t.1.length + t.2.length + 2).sum < (ts'.map fun t => t.1.length + t.2.length + 2).sum) := by
  intro l
  induction l with
  | nil =>
    intro n ts ts' h h' _ _ _
    obtain rfl := List.eq_nil_of_length_eq_zero h.1
    obtain rfl := List.eq_nil_of_length_eq_zero h'.1
    exact ⟨Nat.le_refl _, fun ⟨_, h, _⟩ => nomatch h⟩
  | cons a l ih =>
    intro n ts ts' h h' hk hv hp
    obtain ⟨k, v, ts, rfl, h1, h2, h3⟩ := entryTexts_cons.mp h
    obtain ⟨k', v', ts', rfl, h1', h2', h3'⟩ := entryTexts_cons.mp h'
    obtain ⟨i1, i2⟩ := ih h3 h3' (fun a ha => hk a (.tail _ ha)) (fun a ha => hv a (.tail _ ha)) (fun a ha => hp a (.tail _ ha))
    have hve : v' = v := Res.ok.inj ((hv a (.head _) n _ h2').symm.trans h2)
    subst hve
    simp only [List.map_cons, List.sum_cons]
    by_cases ha : P a
    · have := hp a (.head _) n _ _ ha h1 h1'
      exact ⟨by omega, fun _ => by omega⟩
    · have hke : k' = k := Res.ok.inj ((hk a (.head _) n _ ha h1').symm.trans h1)
      subst hke
      refine ⟨by omega, fun ⟨b, hb, hpb⟩ => ?_⟩
      rcases List.mem_cons.mp hb with rfl | hb
      · exact absurd hpb ha
      · have := i2 ⟨b, hb, hpb⟩
        omega

/-- A key that is a nil pointer is written `""` in a map, and `null` in a `sync.Map`. -/
theorem nil_key (R : Ready W H M) (hkey : KeyType W.E kt) (hp : ∃ e, (W.E kt).kind = .ptr e) {k1 : Nat} {ki : Instr}
    (hki : (if isStringK (W.E kt).kind then some .string else newInstruction W.E k1 kt false false) = some ki) {n m : Nat} {path : Path} {b b' : Bytes}
    (h : runV W M o n path (wrapKey W.E kt ki) .nil [] = .ok b) (h' : appendSyncMapKeyV W o (runV W M o m) path (.iface kt .nil) [] = .ok b') :
    b = b! "\"\"" ∧ b' = b! "null" := by
  obtain ⟨e, hp⟩ := hp
  have ht : (W.E kt).meths.text = true := by
    rcases hkey with h | ⟨k, h⟩ | h
    · rw [hp] at h; cases h
    · rw [hp] at h; cases h
    · exact h
  have hsp : (W.E kt).special = none := by
    cases hs : (W.E kt).special with
    | none => rfl
    | some s =>
      cases s with
      | time => obtain ⟨fs, h, -⟩ := R.types.time _ hs; rw [hp] at h; cases h
      | duration => have h := R.types.duration _ hs; rw [hp] at h; cases h
      | number => have h := R.types.number _ hs; rw [hp] at h; cases h
      | rawMessage => obtain ⟨e, h, -⟩ := R.types.rawMessage _ hs; rw [hp] at h; cases h
      | syncMap => obtain ⟨fs, h, -⟩ := R.types.syncMap _ hs; rw [hp] at h; cases h
  simp only [hp, isStringK, Bool.false_eq_true, if_false] at hki
  have hm : ∃ mk, ki = .marshaler mk kt false := by
    cases k1 with
    | zero => cases hki
    | succ k =>
      simp only [newInstruction, newGoTypeInstr, hsp, Option.map_none, newMarshalerTypeInstr, hp, isPtrK, Bool.not_true, Bool.false_and, ht] at hki
      revert hki
      cases (W.E kt).meths.appendCtx <;> cases (W.E kt).meths.append <;> cases (W.E kt).meths.json <;>
        (simp; intro h; exact ⟨_, h.symm⟩)
  obtain ⟨mk, rfl⟩ := hm
  constructor
  · cases n with
    | zero => cases h
    | succ n =>
      simp only [wrapKey, hp, isStringK, ht, isPtrK, Bool.not_true, Bool.not_false, Bool.and_false, Bool.false_eq_true, if_false, Bool.and_self, if_true, runV, execV] at h
      simpa using h.symm
  · simp only [appendSyncMapKeyV, hp, isStringK, isInteger, ht, Bool.not_true, Bool.not_false, Bool.and_false, Bool.false_eq_true, if_false] at h'
    have hl := iface_less (o := o) (M := M) (W := W) hki m path .nil []
    cases hr : appendJSONV W (runV W M o m) path (.iface kt .nil) [] with
    | ok r =>
      rw [hr] at hl h'
      rcases hl with hl | hl
      · cases hl
      · cases m with
        | zero => cases hl
        | succ m =>
          simp only [runV, execV, encodeMarshalerV, hp, isPtrK, Bool.not_false, Bool.true_or, Bool.and_self, if_true, Res.ok.injEq] at hl
          simp only [Res.ok.injEq] at h'
          rw [← h', hl]; rfl
    | _ => rw [hr] at h'; cases h'

/-- C39: a `sync.Map` is encoded like a map that is encoded without error exactly if no value is a nil interface and no key a nil pointer. -/
theorem C39_same_iff (R : Ready W H M) (hl : FormatContract W.fmt) (hh : HonestAppend M) (ho : OrderOk W.order)
    (S : Twins W H t kt et ca q i p t' ca' q' i' p' kvs) {n m : Nat} {path : Path} {dst out : Bytes} (h1 : run W H o n path i p dst = .ok out)
    (h2 : run W H o m path i' p' dst ≠ .nofuel) : run W H o m path i' p' dst = .ok out ↔ ∀ kv ∈ kvs, ¬ OddEntry W.E kt et kv := by
  constructor
  · intro h
    rw [stands_runV R S.map] at h1
    rw [stands_runV R S.sync] at h
    obtain ⟨rfl, ⟨k1, ki, vi, hki, hvi, rfl⟩, hty⟩ := S.instrs R
    cases m with
    | zero => cases h
    | succ m =>
      have h1 := (runV_mono (m := max n (m + 2) + 1) (by omega) (by rw [h1]; exact Res.noConfusion)).trans h1
      rw [sync_entries] at h
      rw [map_entries R.sort] at h1
      have hpre := fun n => pre_runV (W := W) (M := M) (o := o) (contract_long hl) hh n
      obtain ⟨ts, t1, t2⟩ := entries_len (fun _ _ => hpre _ _ _ _) (fun _ _ => hpre _ _ _ _) R.sort h1
      obtain ⟨ts', t1', t2'⟩ := entries_len (fun _ _ => pre_syncMapKeyV (hpre _) _ _) (fun _ _ => pre_appendJSONV (hpre _) _ _) R.sort h
      have hvis := visit_perm ho path kvs
      have hall := entryTexts_all2 t1'
      have hno : ∀ kv ∈ kvs, ¬ ((∃ n, (W.E et).kind = .iface n) ∧ kv.2 = .nil) := by
        intro kv hkv ⟨⟨j, hj⟩, he⟩
        obtain ⟨z1, -, z3⟩ := hall.zip
        obtain ⟨x, hx, rfl⟩ := List.mem_map.mp (by rw [z1]; exact hvis.mem_iff.mpr hkv : kv ∈ ((W.visit path kvs).zip ts').map Prod.fst)
        obtain ⟨j', -, hv⟩ := z3 x hx
        rw [he] at hv
        simp only [held, hj, appendJSONV] at hv
        cases hv
      intro kv hkv hod
      rcases hod with hod | hod
      · exact hno kv hkv hod
      · have := (texts_longer (fun kv => (∃ e, (W.E kt).kind = .ptr e) ∧ kv.1 = .nil) t1 t1' (fun a ha j b hn hb => ?_) (fun a ha j b hb => ?_)
          (fun a ha j b b' hn hb hb' => ?_)).2 ⟨kv, hvis.mem_iff.mpr hkv, hod⟩
        · omega
        · rcases key_less R S.key hki (hty a (visit_mem ha)).1 (fun hp he => hn ⟨hp, he⟩) m ((2 * j) :: path) [] with hz | hz
          · rw [hz] at hb; cases hb
          · rw [hz] at hb
            exact (runV_mono (by omega) (by rw [hb]; exact Res.noConfusion)).trans hb
        · rcases elem_less R hvi S.elem (hty a (visit_mem ha)).2 (fun hp he => hno a (visit_mem ha) ⟨hp, he⟩) m ((2 * j + 1) :: path) [] with hz | hz
          · rw [hz] at hb; cases hb
          · rw [hz] at hb
            exact (runV_mono (by omega) (by rw [hb]; exact Res.noConfusion)).trans hb
        · obtain ⟨hp, he⟩ := hn
          rw [he] at hb hb'
          obtain ⟨rfl, rfl⟩ := nil_key R S.key hp hki hb hb'
          decide
  · intro hodd
    rw [C39_same_partial R S hodd (by rw [h1]; exact Res.noConfusion) h2, h1]

/-- A `map[string]interface{}` and a `sync.Map` with the same entries, which are encoded the same. -/
example : ∃ p p' kvs, Twins shopW (shopH mapCells) 60 2 10 false false (.map 60 .string .iface) p 30 false false (.goType .syncMap) p' kvs ∧ kvs.length = 2 ∧
    (∀ kv ∈ kvs, ¬ OddEntry shopW.E 2 10 kv) ∧ run shopW (shopH mapCells) defaultEncOpts 5 [] (.map 60 .string .iface) p [] = .ok (b! "{\"a\":1,\"b\":2}") := by
  obtain ⟨p, p', S, S'⟩ := twins_stand
  refine ⟨p, p', _, ⟨S, byKind_of (by decide +kernel), rfl, .inl rfl, fun _ => byKind_of (by decide +kernel), S', rfl⟩, rfl, ?_, ?_⟩
  · intro kv hkv
    simp only [List.mem_cons, List.not_mem_nil, or_false] at hkv
    rcases hkv with rfl | rfl <;> (rintro (⟨-, h⟩ | ⟨-, h⟩) <;> cases h)
  · rw [stands_runV (shop_ready _) S]; decide +kernel

/-- A `map[*Soft]int` and a `sync.Map` with the same entries, one with a nil key. -/
def oddDefs : List TypeDef := softDefs ++
  [ -- 6: sync.Map
    { kind := .struct [], name := b! "Map", special := some .syncMap, size := 8 } ]

theorem odd_ok : univOk oddDefs = true := by decide +kernel

def oddCells : List (Addr × Cell) :=
  [(100, .hmap [(110, 120), (130, 140)]), (110, .word 0), (120, .int (.int 7)), (130, .word 150), (140, .int (.int 8)), (150, .str (b! "x")),
    (200, .smap [(some (5, 0), some (0, 120)), (some (5, 150), some (0, 140))])]

def oddH : Heap := univHeap oddDefs shopMeth oddCells

example : ∃ p p' kvs, Twins (univW oddDefs) oddH 4 5 0 false false (.map 4 (.nilText (.marshaler .text 5 false)) (.int .int)) p
      6 false false (.goType .syncMap) p' kvs ∧ (∃ kv ∈ kvs, OddEntry (univW oddDefs).E 5 0 kv) ∧
    run (univW oddDefs) oddH defaultEncOpts 6 [] (.map 4 (.nilText (.marshaler .text 5 false)) (.int .int)) p [] = .ok (b! "{\"\":7,\"t\":8}") ∧
    run (univW oddDefs) oddH defaultEncOpts 6 [] (.goType .syncMap) p' [] = .ok (b! "{\"t\":8,null:7}") := by
  have R : Ready (univW oddDefs) oddH (univM shopMeth) := univ_ready odd_ok shopMeth oddCells
  obtain ⟨p, S⟩ := entry_stands (W := univW oddDefs) (H := oddH) (t := 4) (w := 100) (i := .map 4 (.nilText (.marshaler .text 5 false)) (.int .int))
      (v := .map [(.nil, .int (.int 7)), (.ptr (.str (b! "x")), .int (.int 8))]) R (univ_repr 6 (by decide +kernel)) (by decide +kernel)
  obtain ⟨p', S'⟩ := entry_stands (W := univW oddDefs) (H := oddH) (t := 6) (w := 200) (i := .goType .syncMap)
      (v := .smap [(.iface 5 .nil, .iface 0 (.int (.int 7))), (.iface 5 (.ptr (.str (b! "x"))), .iface 0 (.int (.int 8)))]) R
      (univ_repr 6 (by decide +kernel)) (by decide +kernel)
  refine ⟨p, p', _, ⟨S, byKind_of (by decide +kernel), rfl, .inr (.inr rfl), fun ⟨_, h⟩ => (by cases h), S', rfl⟩,
    ⟨_, .head _, .inr ⟨⟨2, rfl⟩, rfl⟩⟩, ?_, ?_⟩
  · rw [stands_runV R S]; decide +kernel
  · rw [stands_runV R S']; decide +kernel

end Jettison.Props
