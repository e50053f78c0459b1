import Verif.Proofs.Members
import Verif.Proofs.Reorder
import Verif.Props.Levels
import Verif.Props.Strings
import Verif.Props.Api
import Verif.Props.Scope

/-!
# Maps (C23, C24, C39, C45)
-/

namespace Jettison.Props
open Jettison Jettison.Spec Jettison.Model Jettison.Proofs

variable {W : World} {H : Heap} {M : MethV} {o : EncOpts} {t : TId} {ca q : Bool} {i : Instr} {p : Loc} {v : Val}

theorem isPtr_of {E : Env} {t : TId} (h : isPtrK (E t).kind = true) : IsPtr E t := by
  cases hk : (E t).kind <;> simp_all [isPtrK, IsPtr]

theorem keyText_of {W : World} {H : Heap} {M : MethV} {o : EncOpts} (R : Ready W H M) (hl : FormatContract W.fmt) (hh : HonestAppend H.meth) {kt : TId} {k : Nat} {ki : Instr}
    (hki : (if isStringK (W.E kt).kind then some .string else newInstruction W.E k kt false false) = some ki) {a : Addr} {x : Val}
    (hr : Repr W.E H.mem kt (.heap a) x) {n : Nat} {path : Path} {b : Bytes} (h : run W H o n path (wrapKey W.E kt ki) (.heap a) [] = .ok b) :
    KeyText W H o n kt x b := by
  by_cases hs : (W.E kt).kind = .string
  · have hi : wrapKey W.E kt ki = .string := by
      simp only [hs, isStringK, if_true, Option.some.injEq] at hki
      simp [wrapKey, hs, isStringK, isPtrK, ← hki]
    rw [hi] at h
    obtain ⟨s, rfl, hat⟩ := repr_str R.types hs hr
    cases n with
    | zero => cases h
    | succ n =>
      simp only [run, exec, readStr, hat, withRead, Res.ok.injEq] at h
      subst h
      exact .str hs
  · have hs' : isStringK (W.E kt).kind = false := by
      cases hk : (W.E kt).kind <;> simp_all [isStringK]
    rw [hs'] at hki
    simp only [Bool.false_eq_true, if_false] at hki
    have S : Stands W H kt false false ki (.heap a) x := ⟨⟨_, hki⟩, hr, fun h => nomatch h⟩
    cases ht : (W.E kt).meths.text with
    | false =>
      simp only [wrapKey, hs', ht, Bool.not_false, Bool.and_self, if_true, Bool.false_and, Bool.false_eq_true, if_false] at h
      cases n with
      | zero => cases h
      | succ n =>
        simp only [run, exec, List.nil_append] at h
        have hpre := pre_run (W := W) (H := H) (o := o) (contract_long hl) hh n path ki (.heap a)
        cases hx : run W H o n path ki (.heap a) (b! "\"") with
        | ok d =>
          rw [hx] at h
          obtain ⟨b1, h1, rfl⟩ := (pre_ok_iff hpre).mp hx
          cases h
          exact .quoted hs ht S (by omega) h1
        | _ => rw [hx] at h; cases h
    | true =>
      cases hp : isPtrK (W.E kt).kind with
      | false =>
        simp only [wrapKey, hs', ht, hp, Bool.not_true, Bool.and_false, Bool.false_eq_true, if_false] at h
        refine .text hs ht (fun hp' => ?_) S (Nat.le_refl n) h
        obtain ⟨e, he⟩ := hp'
        rw [he] at hp; cases hp
      | true =>
        simp only [wrapKey, hs', ht, hp, Bool.not_true, Bool.and_false, Bool.false_eq_true, if_false, Bool.and_self, if_true] at h
        obtain ⟨e, he⟩ := isPtr_of hp
        cases n with
        | zero => cases h
        | succ n =>
          rcases repr_ptr R.types he hr with ⟨rfl, hat⟩ | ⟨w, y, rfl, hat, hw, hy⟩
          · simp only [run, exec, readWord, hat, withRead, if_true, Res.ok.injEq, List.nil_append] at h
            subst h
            exact .nilText ht ⟨e, he⟩
          · simp only [run, exec, readWord, hat, withRead, hw, if_false] at h
            exact .text hs ht (by simp) S (by omega) h

/-- C23, C24: what a map is encoded as. The members are the entries, each once, as `key:value`
with the text of the key and the text that encoding the value gives. They are in the order
of the visit if UnsortedMap is set, else in ascending byte order of the keys. -/
theorem C23_C24_members (R : Ready W H M) (hl : FormatContract W.fmt) (hh : HonestAppend H.meth) (ho : OrderOk W.order) (S : Stands W H t ca q i p v)
    (hb : ByKind W.E t ca) {kt et : TId} (hk : (W.E t).kind = .map kt et) (hkey : KeyType W.E kt) {kvs : List (Val × Val)} (hv : v = .map kvs)
    {n : Nat} {path : Path} {dst out : Bytes} (h : run W H o (n + 1) path i p dst = .ok out) :
    ∃ ms : List ((Val × Val) × (Bytes × Bytes)), (ms.map Prod.fst).Perm kvs ∧
      (∀ m ∈ ms, KeyText W H o n kt m.1.1 m.2.1 ∧ ∃ j a path', Stands W H et false false j (.heap a) m.1.2 ∧ run W H o n path' j (.heap a) [] = .ok m.2.2) ∧
      out = dst ++ objectOf (ms.map Prod.snd) ∧
      (bmHas o.flags .unsortedMap = true → ms.map Prod.fst = (W.order path kvs.length).filterMap (kvs[·]?)) ∧
      (bmHas o.flags .unsortedMap = false → (ms.Pairwise fun a b => ByteLe (keyBody a.2.1) (keyBody b.2.1)) ∧ ∀ m ∈ ms, 2 ≤ m.2.1.length) := by
  obtain ⟨k, hm⟩ := S.made
  obtain ⟨k', ki, vi, hki, hvi, rfl⟩ := byKind_map hb hk ((mapKeyOk_iff _ _).mpr hkey) hm
  subst hv
  rcases repr_map R.types hk S.holds with ⟨he, -⟩ | ⟨a, es, kvs', he, hat, ha, hmem, hlen, hks, hvs⟩
  · cases he
  cases he
  simp only [run, exec, encodeMap, readWord, hat, withRead, ha, if_false, readMap, hmem] at h
  split at h
  · next h0 =>
    have : kvs = [] := List.eq_nil_of_length_eq_zero (by omega)
    subst this
    refine ⟨[], .nil, by simp, ?_, ?_, fun _ => ⟨.nil, by simp⟩⟩
    · cases h; rfl
    · intro _; simp
  · have hpre := pre_run (W := W) (H := H) (o := o) (contract_long hl) hh n
    have hz : es = (es.zip kvs).map Prod.fst := by rw [List.map_fst_zip (by omega)]
    have hz2 : kvs = (es.zip kvs).map Prod.snd := by rw [List.map_snd_zip (by omega)]
    rw [hz, visit_map, encodeEntries_map] at h
    obtain ⟨ms, m1, m2, m3, m4, m5⟩ := entries_members (fun _ _ => hpre _ _ _) (fun _ _ => hpre _ _ _) R.sort h
    have hmv := visit_perm ho path (es.zip kvs)
    refine ⟨ms.map fun m => (m.1.2, m.2), ?_, ?_, ?_, fun hu => ?_, fun hu => ?_⟩
    · have := (m1.trans hmv).map Prod.snd
      rw [← hz2, List.map_map] at this
      rw [List.map_map]; exact this
    · intro m hm
      obtain ⟨m', hm', rfl⟩ := List.mem_map.mp hm
      obtain ⟨k1, hkx, hvx⟩ := m2 m' hm'
      have hin := hmv.mem_iff.mp (m1.mem_iff.mp (List.mem_map_of_mem hm'))
      obtain ⟨j, hj⟩ := List.mem_iff_getElem?.mp hin
      rw [List.getElem?_zip_eq_some] at hj
      have hrk := hks j _ _ hj.1 hj.2
      have hrv := hvs j _ _ hj.1 hj.2
      refine ⟨?_, vi, _, _, ⟨⟨_, hvi⟩, hrv, fun h => nomatch h⟩, hvx⟩
      exact keyText_of R hl hh hki hrk hkx
    · rw [m3, objectOf]; simp [List.map_map, Function.comp_def]
    · rw [List.map_map]
      have := congrArg (List.map Prod.snd) (m4 hu)
      rw [List.map_map, ← visit_map, ← hz2] at this
      exact this
    · exact ⟨by rw [List.pairwise_map]; exact (m5 hu).1, fun m hm => by
      obtain ⟨m', hm', rfl⟩ := List.mem_map.mp hm
      exact (m5 hu).2 m' hm'⟩

/-- What encoding the value of an interface runs. -/
theorem held_run (R : Ready W H M) {x : Eface} {y : Val} {n : Nat} {path : Path} {b : Bytes} (hx : ReprE W.E H.mem x y)
    (hb : appendJSON W (run W H o n) path x [] = .ok b) : ∃ d z w, x = some (d, w) ∧ y = .iface d z ∧
      ∃ j a path' k, Stands W H d (isPtrK (W.E d).kind) false j a z ∧ k ≤ n ∧ run W H o k path' j a [] = .ok b := by
  have key : ∀ d w z, ReprE W.E H.mem (some (d, w)) (.iface d z) → x = some (d, w) →
      ∃ j a path' k, Stands W H d (isPtrK (W.E d).kind) false j a z ∧ k ≤ n ∧ run W H o k path' j a [] = .ok b := by
    intro d w z hx hxe
    rw [hxe] at hb
    rcases entry (o := o) R hx n with ⟨-, h⟩ | ⟨j, p', k, h1, h2, h3⟩
    · rw [h] at hb; cases hb
    · exact ⟨j, p', path, k, h1, h2, by rw [← h3]; exact hb⟩
  cases hx with
  | nil => simp [appendJSON] at hb
  | @direct d w z hd hr => exact ⟨d, z, w, rfl, rfl, key d w z (.direct hd hr) rfl⟩
  | @indirect d w z hd hr => exact ⟨d, z, w, rfl, rfl, key d w z (.indirect hd hr) rfl⟩

theorem syncKeyText_of (R : Ready W H M) (hl : FormatContract W.fmt) (hh : HonestAppend H.meth) {x : Eface} {y : Val} {n : Nat} {path : Path}
    {b : Bytes} (hx : ReprE W.E H.mem x y) (hb : appendSyncMapKey W H o (run W H o n) path x [] = .ok b) : SyncKeyText W H o n y b := by
  have hpre := pre_run (W := W) (H := H) (o := o) (contract_long hl) hh n
  cases x with
  | none => simp [appendSyncMapKey] at hb
  | some x =>
    obtain ⟨kt, w⟩ := x
    simp only [appendSyncMapKey] at hb
    split at hb
    · cases hb
    · next hq =>
      split at hb
      · next hs =>
        have hs : (W.E kt).kind = .string := by
          cases hk : (W.E kt).kind <;> simp_all [isStringK]
        cases hx with
        | direct hd hr => cases hd <;> simp_all
        | indirect hd hr =>
          obtain ⟨s, rfl, hat⟩ := repr_str R.types hs hr
          simp only [readStr, hat, withRead, Res.ok.injEq] at hb
          subst hb
          exact .str hs
      · next hs =>
        have hs' : isStringK (W.E kt).kind = false := by simpa using hs
        have hns : (W.E kt).kind ≠ .string := by
          intro h; rw [h] at hs'; cases hs'
        cases ht : (W.E kt).meths.text with
        | true =>
          simp only [hs', ht, Bool.not_true, Bool.and_false, Bool.false_eq_true, if_false] at hb
          cases hz : appendJSON W (run W H o n) path (some (kt, w)) [] with
          | ok z =>
            rw [hz] at hb; cases hb
            obtain ⟨d, z', w', he, rfl, j, a, path', k, h1, h2, h3⟩ := held_run R hx hz
            cases he
            exact .text hns ht h1 h2 h3
          | _ => rw [hz] at hb; cases hb
        | false =>
          simp only [hs', ht, Bool.not_false, Bool.and_self, if_true, List.nil_append] at hb
          cases hz : appendJSON W (run W H o n) path (some (kt, w)) (b! "\"") with
          | ok z =>
            rw [hz] at hb; cases hb
            obtain ⟨b1, h1, rfl⟩ := (pre_ok_iff (pre_appendJSON hpre _ _)).mp hz
            obtain ⟨d, z', w', he, rfl, j, a, path', k, h1, h2, h3⟩ := held_run R hx h1
            cases he
            obtain ⟨k', hk'⟩ : ∃ k', (W.E kt).kind = .int k' := by
              cases hk : (W.E kt).kind <;> simp_all [isStringK, isInteger]
            exact .quoted hk' ht h1 h2 h3
          | _ => rw [hz] at hb; cases hb

/-- C39: what a `sync.Map` is encoded as. The members are as for a map, with the types found in
the interfaces. -/
theorem C39_members (R : Ready W H M) (hl : FormatContract W.fmt) (hh : HonestAppend H.meth) (ho : OrderOk W.order) (S : Stands W H t ca q i p v)
    (hsp : (W.E t).special = some .syncMap) {kvs : List (Val × Val)} (hv : v = .smap kvs)
    {n : Nat} {path : Path} {dst out : Bytes} (h : run W H o (n + 1) path i p dst = .ok out) :
    ∃ ms : List ((Val × Val) × (Bytes × Bytes)), (ms.map Prod.fst).Perm kvs ∧
      (∀ m ∈ ms, SyncKeyText W H o n m.1.1 m.2.1 ∧ ∃ d x, m.1.2 = .iface d x ∧ ∃ j a path' k, Stands W H d (isPtrK (W.E d).kind) false j a x ∧ k ≤ n ∧
        run W H o k path' j a [] = .ok m.2.2) ∧
      out = dst ++ objectOf (ms.map Prod.snd) ∧
      (bmHas o.flags .unsortedMap = true → ms.map Prod.fst = (W.order path kvs.length).filterMap (kvs[·]?)) ∧
      (bmHas o.flags .unsortedMap = false → (ms.Pairwise fun a b => ByteLe (keyBody a.2.1) (keyBody b.2.1)) ∧ ∀ m ∈ ms, 2 ≤ m.2.1.length) := by
  obtain ⟨k, hm⟩ := S.made
  have hi : i = .goType .syncMap := by
    cases k with
    | zero => cases hm
    | succ k => simp only [newInstruction, newGoTypeInstr, hsp, Option.map_some, Option.some.injEq] at hm; exact hm.symm
  subst hi hv
  obtain ⟨es, kvs', he, hat, hlen, hks, hvs⟩ := repr_smap R.types hsp S.holds
  cases he
  simp only [run, exec, encodeSpecial, encodeSyncMap, readSyncMap, hat, withRead] at h
  have hpre := pre_run (W := W) (H := H) (o := o) (contract_long hl) hh n
  have hz : es = (es.zip kvs).map Prod.fst := by rw [List.map_fst_zip (by omega)]
  have hz2 : kvs = (es.zip kvs).map Prod.snd := by rw [List.map_snd_zip (by omega)]
  rw [hz, visit_map, encodeEntries_map] at h
  obtain ⟨ms, m1, m2, m3, m4, m5⟩ := entries_members (fun _ _ => pre_syncMapKey hpre _ _) (fun _ _ => pre_appendJSON hpre _ _) R.sort h
  have hmv := visit_perm ho path (es.zip kvs)
  refine ⟨ms.map fun m => (m.1.2, m.2), ?_, ?_, ?_, fun hu => ?_, fun hu => ?_⟩
  · have := (m1.trans hmv).map Prod.snd
    rw [← hz2, List.map_map] at this
    rw [List.map_map]; exact this
  · intro m hm
    obtain ⟨m', hm', rfl⟩ := List.mem_map.mp hm
    obtain ⟨k1, hkx, hvx⟩ := m2 m' hm'
    have hin := hmv.mem_iff.mp (m1.mem_iff.mp (List.mem_map_of_mem hm'))
    obtain ⟨j, hj⟩ := List.mem_iff_getElem?.mp hin
    rw [List.getElem?_zip_eq_some] at hj
    have hrk := hks j _ _ hj.1 hj.2
    have hrv := hvs j _ _ hj.1 hj.2
    refine ⟨syncKeyText_of R hl hh hrk hkx, ?_⟩
    obtain ⟨d, z, w, -, h1, h2⟩ := held_run R hrv hvx
    exact ⟨d, z, h1, h2⟩
  · rw [m3, objectOf]; simp [List.map_map, Function.comp_def]
  · rw [List.map_map]
    have := congrArg (List.map Prod.snd) (m4 hu)
    rw [List.map_map, ← visit_map, ← hz2] at this
    exact this
  · exact ⟨by rw [List.pairwise_map]; exact (m5 hu).1, fun m hm => by
      obtain ⟨m', hm', rfl⟩ := List.mem_map.mp hm
      exact (m5 hu).2 m' hm'⟩

/-- C39: a `sync.Map` with a key that is neither a string, an integer nor a `TextMarshaler`, or with
a nil key, is never encoded; with one entry the error says so. -/
theorem C39_bad_key (R : Ready W H M) (hl : FormatContract W.fmt) (hh : HonestAppend H.meth) (ho : OrderOk W.order) (S : Stands W H t ca q i p v)
    (hsp : (W.E t).special = some .syncMap) {kvs : List (Val × Val)} (hv : v = .smap kvs) {kv : Val × Val} (hin : kv ∈ kvs)
    (hbad : kv.1 = .nil ∨ ∃ kt x, kv.1 = .iface kt x ∧ ¬ KeyType W.E kt) (n : Nat) (path : Path) (dst : Bytes) :
    (∀ out, run W H o n path i p dst ≠ .ok out) ∧
    (kvs = [kv] → run W H o (n + 1) path i p dst = .fail .syncMapNilKey (dst ++ b! "{") ∨
      ∃ kt, run W H o (n + 1) path i p dst = .fail (.syncMapKey kt) (dst ++ b! "{")) := by
  constructor
  · intro out h
    cases n with
    | zero => cases h
    | succ n =>
      obtain ⟨ms, hp, hms, -⟩ := C39_members R hl hh ho S hsp hv h
      obtain ⟨m, hm, rfl⟩ := List.mem_map.mp (hp.mem_iff.mpr hin)
      have hkt := (hms m hm).1
      generalize m.2.1 = txt at hkt
      rcases hbad with he | ⟨kt, x, he, hnk⟩
      · rw [he] at hkt; cases hkt
      · rw [he] at hkt
        apply hnk
        cases hkt with
        | str hs => exact .inl hs
        | text _ ht => exact .inr (.inr ht)
        | quoted hk => exact .inr (.inl ⟨_, hk⟩)
  · intro he
    subst he
    rw [stands_runV R S]
    obtain ⟨k, hm⟩ := S.made
    have hi : i = .goType .syncMap := by
      cases k with
      | zero => cases hm
      | succ k => simp only [newInstruction, newGoTypeInstr, hsp, Option.map_some, Option.some.injEq] at hm; exact hm.symm
    subst hi hv
    have hvis : W.visit path [kv] = [kv] := List.perm_singleton.mp (visit_perm ho path [kv])
    simp only [runV, execV, encodeSpecialV, hvis]
    rcases hbad with he | ⟨kt, x, he, hnk⟩
    · left
      simp only [encodeEntries, unsortedLoop, encodeSorted, sortedLoop, he, appendSyncMapKeyV]
      cases bmHas o.flags .unsortedMap <;> rfl
    · right
      refine ⟨kt, ?_⟩
      have h3 : (!isStringK (W.E kt).kind && !isInteger (W.E kt).kind && !(W.E kt).meths.text) = true := by
        cases h : mapKeyOk W.E kt with
        | true => exact absurd ((mapKeyOk_iff _ _).mp h) hnk
        | false => simp only [mapKeyOk, Bool.or_eq_false_iff] at h; simp [h]
      simp only [encodeEntries, unsortedLoop, encodeSorted, sortedLoop, he, appendSyncMapKeyV, h3, if_true]
      cases bmHas o.flags .unsortedMap <;> rfl

theorem less_mem {α : Type} {W : World} {o : EncOpts} {kf vf kf' vf' : Nat → α → Bytes → Res} {l : List α} (hk : ∀ a ∈ l, ∀ n dst, Less (kf n a dst) (kf' n a dst))
    (hv : ∀ a ∈ l, ∀ n dst, Less (vf n a dst) (vf' n a dst)) (dst : Bytes) : Less (encodeEntries W o kf vf l dst) (encodeEntries W o kf' vf' l dst) := by
  have e : l = l.attach.map Subtype.val := by simp
  rw [e, encodeEntries_map, encodeEntries_map]
  exact less_cong.entries (α := { x // x ∈ l }) (fun n a dst => hk a.1 a.2 n dst) (fun n a dst => hv a.1 a.2 n dst) _ _

theorem runV_lessM {n m : Nat} (h : n ≤ m) (path : Path) (i : Instr) (x : Val) (dst : Bytes) : Less (runV W M o n path i x dst) (runV W M o m path i x dst) := by
  by_cases hf : runV W M o n path i x dst = .nofuel
  · exact .inl hf
  · exact .inr (runV_mono h hf).symm

/-! ## Iteration order -/

theorem keyText_nil {kt : TId} {n : Nat} {b : Bytes} (h : KeyText W H o n kt .nil b) (hp : IsPtr W.E kt) (ht : (W.E kt).meths.text = true) : b = b! "\"\"" := by
  generalize hx : Val.nil = x at h
  cases h with
  | str => cases hx
  | nilText => rfl
  | text _ _ hn => exact absurd hx.symm (hn hp)
  | quoted _ hf => rw [hf] at ht; cases ht

/-- C45: the key of the member for a nil pointer with a `MarshalText` method is the empty string. -/
theorem C45_nil_key (R : Ready W H M) (hl : FormatContract W.fmt) (hh : HonestAppend H.meth) (ho : OrderOk W.order) (S : Stands W H t ca q i p v)
    (hb : ByKind W.E t ca) {kt et : TId} (hk : (W.E t).kind = .map kt et) (hp : IsPtr W.E kt) (ht : (W.E kt).meths.text = true) {kvs : List (Val × Val)} (hv : v = .map kvs)
    {x : Val} (hin : (.nil, x) ∈ kvs) {n : Nat} {path : Path} {dst out : Bytes} (h : run W H o (n + 1) path i p dst = .ok out) :
    ∃ j a path' val pre post, Stands W H et false false j (.heap a) x ∧ run W H o n path' j (.heap a) [] = .ok val ∧
      out = dst ++ objectOf (pre ++ (b! "\"\"", val) :: post) := by
  obtain ⟨ms, hperm, hms, rfl, -⟩ := C23_C24_members R hl hh ho S hb hk (.inr (.inr ht)) hv h
  obtain ⟨m, hm, he⟩ := List.mem_map.mp (hperm.mem_iff.mpr hin)
  obtain ⟨hkt, j, a, path', hS, hr⟩ := hms m hm
  rw [he] at hkt hS
  obtain ⟨pre, post, rfl⟩ := List.append_of_mem hm
  have := keyText_nil hkt hp ht
  refine ⟨j, a, path', m.2.2, pre.map Prod.snd, post.map Prod.snd, hS, hr, ?_⟩
  simp [← this]

theorem ready_order (R : Ready W H M) (ord : Path → Nat → List Nat) : Ready { W with order := ord } H M :=
  ⟨R.types, R.apart, R.nest, R.tab, R.sort, R.meth⟩

/-- C23: the text of a successful call without UnsortedMap does not depend on the orders in which maps are
visited, if in no map two entries that are written differently have the same key (`C23_coerced_keys_wrong`:
otherwise it does). -/
theorem C23_order_partial (R : Ready W H M) (hl : FormatContract W.fmt) (hh : HonestAppend M) (hM : PathFree M) (ho : OrderOk W.order)
    {ord : Path → Nat → List Nat} (ho' : OrderOk ord) {t : TId} {w : Addr} {v : Val} (hx : ReprE W.E H.mem (some (t, w)) (.iface t v))
    {opts : List (Option Opt)} (hu : ∀ o, prepare opts = .ok o → bmHas o.flags .unsortedMap = false ∧ KeysApart W M o t v) {n : Nat} {b : Bytes}
    (h : marshalOpts W H n (some (t, w)) opts = .ret (some b) none) :
    marshalOpts { W with order := ord } H n (some (t, w)) opts = .ret (some b) none := by
  simp only [marshalOpts] at h ⊢
  cases hp : prepare opts with
  | error e => rw [hp] at h; cases h
  | ok o =>
    rw [hp] at h
    obtain ⟨hu, hk⟩ := hu o hp
    simp only [marshalJSON] at h ⊢
    rw [appendJSON_eq (run_agrees R n).2 hx] at h
    rw [appendJSON_eq (W := { W with order := ord }) (run_agrees (ready_order R ord) n).2 hx]
    simp only [appendJSONV] at h ⊢
    cases hi : instrFor W.E W.tfuel t with
    | none => rw [hi] at h; cases h
    | some i =>
      rw [hi] at h
      simp only at h ⊢
      have hv : HasType W.E t v := by
        cases repr_inIface hx with
        | val h => exact h
      cases hr : runV W M o n [] i v [] with
      | ok b' =>
        rw [hr] at h
        cases h
        rw [runV_order R.types ho ho' R.sort (contract_long hl) hh hM hu n (instrFor_typedI hi) hv hk [] [] _ hr]
        rfl
      | _ => rw [hr] at h; cases h

theorem butSort_refl (o : EncOpts) : ButSort o o := ⟨fun _ _ => rfl, rfl, rfl, rfl, fun _ => rfl⟩

theorem butSort_run (o : EncOpts) : ButSort o ((Opt.flag .unsortedMap).run o) := by
  refine ⟨fun g hg => ?_, rfl, rfl, rfl, fun _ => rfl⟩
  rcases has_run (.flag .unsortedMap) o g with h | h
  · cases h; exact absurd rfl hg
  · exact h

/-- C24: adding UnsortedMap, and any change of the orders in which maps are visited, changes nothing
but the order of the members of objects in the text. -/
theorem C24_reordered (R : Ready W H M) (hl : FormatContract W.fmt) (hh : HonestAppend M) (hM : PathFree M) (ho : OrderOk W.order)
    {ord : Path → Nat → List Nat} (ho' : OrderOk ord) {t : TId} {w : Addr} {v : Val} (hx : ReprE W.E H.mem (some (t, w)) (.iface t v))
    {l l' opts : List (Option Opt)} (hopts : opts = l ++ l' ∨ opts = l ++ some (.flag .unsortedMap) :: l') {n : Nat} {b b' : Bytes}
    (h : marshalOpts W H n (some (t, w)) (l ++ l') = .ret (some b) none)
    (h' : marshalOpts { W with order := ord } H n (some (t, w)) opts = .ret (some b') none) : Reordered b b' := by
  simp only [marshalOpts] at h h'
  cases hp : prepare (l ++ l') with
  | error e => rw [hp] at h; cases h
  | ok o =>
    cases hp' : prepare opts with
    | error e => rw [hp'] at h'; cases h'
    | ok o' =>
      have hbut : ButSort o o' := by
        rcases hopts with rfl | rfl
        · rw [hp] at hp'; cases hp'; exact butSort_refl o
        · rcases prepare_insert hp hp' with rfl | rfl
          · exact butSort_refl _
          · exact butSort_run o
      rw [hp] at h; rw [hp'] at h'
      simp only [marshalJSON] at h h'
      rw [appendJSON_eq (run_agrees R n).2 hx] at h
      rw [appendJSON_eq (W := { W with order := ord }) (run_agrees (ready_order R ord) n).2 hx] at h'
      simp only [appendJSONV] at h h'
      cases hi : instrFor W.E W.tfuel t with
      | none => rw [hi] at h; cases h
      | some i =>
        rw [hi] at h h'
        simp only at h h'
        have hv : HasType W.E t v := by
          cases repr_inIface hx with
          | val h => exact h
        cases hr : runV W M o n [] i v [] with
        | ok b1 =>
          rw [hr] at h
          cases h
          cases hr' : runV { W with order := ord } M o' n [] i v [] with
          | ok b2 =>
            rw [hr'] at h'
            cases h'
            exact runV_reorder R.types ho ho' R.sort (contract_long hl) hh hM hbut n (instrFor_typedI hi) hv [] [] _ _ hr hr'
          | _ => rw [hr'] at h'; cases h'
        | _ => rw [hr] at h; cases h

/-! ## Plain keys -/

theorem keyBody_quotes (b : Bytes) : keyBody (b! "\"" ++ b ++ b! "\"") = b := by
  simp [keyBody]

theorem encodeString_quotes (s : Bytes) (e : EscOpts) : ∃ body, encodeString s [] e = b! "\"" ++ body ++ b! "\"" := by
  by_cases h : e.noStringEscaping = true
  · obtain ⟨a, b, c⟩ := e
    simp only at h
    subst h
    exact ⟨s, by simpa using C05_verbatim s [] b c⟩
  · obtain ⟨body, h1, -⟩ := C01_string_token s [] e (by simpa using h)
    exact ⟨body, by simpa using h1⟩

theorem keyBody_string {s s' : Bytes} {e : EscOpts} (hs : ValidUtf8 s) (hs' : ValidUtf8 s')
    (h : keyBody (encodeString s [] e) = keyBody (encodeString s' [] e)) : s = s' := by
  obtain ⟨b1, h1⟩ := encodeString_quotes s e
  obtain ⟨b2, h2⟩ := encodeString_quotes s' e
  have heq : encodeString s [] e = encodeString s' [] e := by
    rw [h1, h2, keyBody_quotes, keyBody_quotes] at h
    rw [h1, h2, h]
  by_cases hn : e.noStringEscaping = true
  · obtain ⟨a, b, c⟩ := e
    simp only at hn
    subst hn
    rw [C05_verbatim, C05_verbatim] at heq
    simpa using heq
  · exact C06_injective s s' [] e (by simpa using hn) hs hs' heq

theorem keyBody_int {x y : IntVal} (h : keyBody (encodeIntVal x (b! "\"") ++ b! "\"") = keyBody (encodeIntVal y (b! "\"") ++ b! "\"")) : intOf x = intOf y := by
  obtain ⟨b1, h1, h2⟩ := C08_integer_literal x (b! "\"")
  obtain ⟨b2, h3, h4⟩ := C08_integer_literal y (b! "\"")
  rw [h1, h3, keyBody_quotes, keyBody_quotes] at h
  refine C08_integer_injective x y (b! "\"") ?_
  rw [h1, h3, h]

theorem runV_string {n : Nat} {path : Path} {s x : Bytes} (h : runV W M o n path .string (.str s) [] = .ok x) : x = encodeString s [] o.esc := by
  cases n with
  | zero => cases h
  | succ n => simp only [runV, execV, Res.ok.injEq] at h; exact h.symm

theorem runV_quotedInt {n : Nat} {path : Path} {k : IntK} {y : IntVal} {x : Bytes} (h : runV W M o n path (.quoted (.int k)) (.int y) [] = .ok x) :
    x = encodeIntVal y (b! "\"") ++ b! "\"" := by
  cases n with
  | zero => cases h
  | succ n =>
    cases n with
    | zero => cases h
    | succ n => simp only [runV, execV, Res.ok.injEq, List.nil_append] at h; exact h.symm

theorem byKind_noText {E : Env} {t : TId} {ca : Bool} (h : ByKind E t ca) : (E t).meths.text = false := by
  cases ht : (E t).meths.text with
  | false => rfl
  | true => exact absurd (.inr (.inr (.inr ht))) h.meths

/-- Plain keys have different texts. -/
theorem keysApart_plain {E : Env} (he : W.E = E) (h : AllPlain E t v) : KeysApart W M o t v := by
  subst he
  constructor
  · intro t' k e kvs hw hk ki vi hki _
    obtain ⟨f, j, hj, rfl⟩ := hki
    rcases h.map t' k e kvs hw hk with ⟨ss, h1, h2, h3, h4⟩ | ⟨xs, h1, h3, h4⟩
    · have hall : All2 (fun s (kv : Val × Val) => s ∈ ss ∧ kv.1 = .str s ∧ (W.E k).kind = .string) ss kvs := by
        refine all2_of_index (by omega) fun i s kv hs hkv => ?_
        obtain ⟨kt, ⟨rfl, he⟩, hks⟩ := h4 i kv s hkv hs
        exact ⟨List.mem_of_getElem? hs, he.symm, hks⟩
      refine hall.pairwise ?_ h1
      rintro s s' a b hne ⟨m1, ha, hks⟩ ⟨m2, hb, -⟩ n m p p' _ _ x y _ _ hx hy _ _ he
      have hw : wrapKey W.E k j = .string := by
        simp only [hks, isStringK, if_true, Option.some.injEq] at hj
        simp [wrapKey, hks, isStringK, isPtrK, ← hj]
      rw [hw, ha] at hx
      rw [hw, hb] at hy
      rw [runV_string hx, runV_string hy] at he
      exact absurd (keyBody_string (h2 s m1) (h2 s' m2) he) hne
    · have hall : All2 (fun x (kv : Val × Val) => kv.1 = .int x ∧ ∃ kk, (W.E k).kind = .int kk ∧ ByKind W.E k false) xs kvs := by
        refine all2_of_index (by omega) fun i s kv hs hkv => ?_
        obtain ⟨kt, kk, ⟨rfl, he⟩, hks, hbk⟩ := h4 i kv s hkv hs
        exact ⟨he.symm, kk, hks, hbk⟩
      refine hall.pairwise ?_ h1
      rintro s s' a b hne ⟨ha, kk, hks, hbk⟩ ⟨hb, -⟩ n m p p' _ _ x y _ _ hx hy _ _ he
      have hw : wrapKey W.E k j = .quoted (.int kk) := by
        simp only [hks, isStringK, Bool.false_eq_true, if_false] at hj
        have := byKind_basic hbk (by rw [hks]; rfl) hj
        rw [hks] at this
        simp only [newBasicTypeInstr, Bool.false_eq_true, if_false, Option.some.injEq] at this
        simp [wrapKey, hks, isStringK, byKind_noText hbk, ← this]
      rw [hw, ha] at hx
      rw [hw, hb] at hy
      rw [runV_quotedInt hx, runV_quotedInt hy] at he
      exact absurd (keyBody_int he) hne
  · intro t' kvs hw
    rcases h.smap t' kvs hw with ⟨ss, h1, h2, h3, h4⟩ | ⟨xs, h1, h3, h4⟩
    · have hall : All2 (fun s (kv : Val × Val) => s ∈ ss ∧ ∃ kt, kv.1 = .iface kt (.str s) ∧ (W.E kt).kind = .string) ss kvs := by
        refine all2_of_index (by omega) fun i s kv hs hkv => ?_
        obtain ⟨kt, he, hks⟩ := h4 i kv s hkv hs
        exact ⟨List.mem_of_getElem? hs, kt, he, hks⟩
      refine hall.pairwise ?_ h1
      rintro s s' a b hne ⟨m1, kt, ha, hks⟩ ⟨m2, kt', hb, hks'⟩ n m p p' _ _ x y _ _ hx hy _ _ he
      rw [ha] at hx
      rw [hb] at hy
      simp only [appendSyncMapKeyV, hks, hks', isStringK, Bool.not_true, Bool.false_and, Bool.false_eq_true, if_false, if_true, Res.ok.injEq] at hx hy
      rw [← hx, ← hy] at he
      exact absurd (keyBody_string (h2 s m1) (h2 s' m2) he) hne
    · have hall : All2 (fun x (kv : Val × Val) => ∃ kt, kv.1 = .iface kt (.int x) ∧ ∃ kk, (W.E kt).kind = .int kk ∧ ByKind W.E kt false) xs kvs := by
        refine all2_of_index (by omega) fun i s kv hs hkv => ?_
        obtain ⟨kt, kk, he, hks, hbk⟩ := h4 i kv s hkv hs
        exact ⟨kt, he, kk, hks, hbk⟩
      have key : ∀ {kt kk z n p x}, (W.E kt).kind = .int kk → ByKind W.E kt false → appendSyncMapKeyV W o (runV W M o n) p (.iface kt (.int z)) [] = .ok x →
          x = encodeIntVal z (b! "\"") ++ b! "\"" := by
        intro kt kk z n p x hks hbk hx
        simp only [appendSyncMapKeyV, hks, isStringK, isInteger, byKind_noText hbk, Bool.not_false, Bool.not_true, Bool.and_false, Bool.false_and, Bool.false_eq_true,
          if_false, Bool.and_self, if_true, List.nil_append, appendJSONV] at hx
        cases hi : instrFor W.E W.tfuel kt with
        | none => rw [hi] at hx; cases hx
        | some i =>
          rw [hi] at hx
          simp only [instrFor] at hi
          split at hi
          · cases hi
          · next j hj =>
            simp only [hks, isPtrK] at hj
            have hb := byKind_basic hbk (by rw [hks]; rfl) hj
            rw [hks] at hb
            simp only [newBasicTypeInstr, Bool.false_eq_true, if_false, Option.some.injEq] at hb hi
            subst hb
            split at hi
            · subst hi
              cases n with
              | zero => cases hx
              | succ n =>
                cases n with
                | zero => cases hx
                | succ n => simp only [runV, execV, Res.ok.injEq] at hx; exact hx.symm
            · subst hi
              cases n with
              | zero => cases hx
              | succ n => simp only [runV, execV, Res.ok.injEq] at hx; exact hx.symm
      refine hall.pairwise ?_ h1
      rintro s s' a b hne ⟨kt, ha, kk, hks, hbk⟩ ⟨kt', hb, kk', hks', hbk'⟩ n m p p' _ _ x y _ _ hx hy _ _ he
      rw [ha] at hx
      rw [hb] at hy
      rw [key hks hbk hx, key hks' hbk' hy] at he
      exact absurd (keyBody_int he) hne

/-- C23 for maps and `sync.Map`s with plain keys: valid UTF-8 strings, or integers. -/
theorem C23_order_plain (R : Ready W H M) (hl : FormatContract W.fmt) (hh : HonestAppend M) (hM : PathFree M) (ho : OrderOk W.order)
    {ord : Path → Nat → List Nat} (ho' : OrderOk ord) {t : TId} {w : Addr} {v : Val} (hx : ReprE W.E H.mem (some (t, w)) (.iface t v))
    (hk : AllPlain W.E t v) {opts : List (Option Opt)} (hu : ∀ o, prepare opts = .ok o → bmHas o.flags .unsortedMap = false) {n : Nat} {b : Bytes} :
    marshalOpts W H n (some (t, w)) opts = .ret (some b) none ↔
      marshalOpts { W with order := ord } H n (some (t, w)) opts = .ret (some b) none := by
  constructor
  · exact C23_order_partial R hl hh hM ho ho' hx fun o h => ⟨hu o h, keysApart_plain rfl hk⟩
  · intro h
    exact C23_order_partial (W := { W with order := ord }) (ord := W.order) (ready_order R ord) hl hh hM ho' ho hx
      (fun o h => ⟨hu o h, keysApart_plain rfl hk⟩) h

end Jettison.Props
