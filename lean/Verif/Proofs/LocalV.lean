import Verif.Proofs.LocalR
import Verif.Proofs.Refine

/-! # The part of a program that has only the types of a family -/

namespace Jettison.Proofs
open Jettison Jettison.Model Jettison.Spec

open Classical in
/-- The types of the family, and in place of the others booleans or pointers without methods. -/
noncomputable def cutEnv (S : TId → Prop) (E : Env) : Env := fun t =>
  if S t then E t else match (E t).kind with | .ptr e => { kind := .ptr e } | _ => { kind := .bool }

open Classical in
/-- The memory without the interfaces that hold other types. -/
noncomputable def cutMem (S : TId → Prop) (m : Mem) : Mem := fun a =>
  match m a with | some c => if CellIn S c then some c else none | none => none

/-- The program with the types of the family. -/
noncomputable def cutWorld (S : TId → Prop) (W : World) : World := { W with E := cutEnv S W.E }

open Classical in
/-- The heap with the types of the family. -/
noncomputable def cutHeap (S : TId → Prop) (H : Heap) : Heap :=
  { mem := cutMem S H.mem, meth := fun path m ctx t w dst => if S t then H.meth path m ctx t w dst else .panic }

open Classical in
/-- The methods of the types of the family. -/
noncomputable def cutMeth (S : TId → Prop) (M : MethV) : MethV := fun path m ctx t v dst =>
  if S t then M path m ctx t v dst else .panic

variable {S : TId → Prop} {W : World} {H : Heap} {M : MethV}

theorem cutEnv_in {E : Env} {t : TId} (h : S t) : cutEnv S E t = E t := by simp only [cutEnv, if_pos h]

theorem cutEnv_out {E : Env} {t : TId} (h : ¬ S t) : (∃ e, cutEnv S E t = { kind := .ptr e } ∧ (E t).kind = .ptr e) ∨ cutEnv S E t = { kind := .bool } := by
  simp only [cutEnv, if_neg h]
  cases hk : (E t).kind <;> first | exact .inr rfl | exact .inl ⟨_, rfl, rfl⟩

theorem cut_alike (S : TId → Prop) (W : World) : InCommon S W (cutWorld S W) := ⟨fun _ h => cutEnv_in h, fun _ _ => rfl, rfl⟩

theorem cutMem_some {m : Mem} {a : Addr} {c : Cell} (h : cutMem S m a = some c) : m a = some c ∧ CellIn S c := by
  unfold cutMem at h
  split at h
  · rename_i c' hc
    split at h
    · rename_i hin; cases h; exact ⟨hc, hin⟩
    · cases h
  · cases h

theorem cutMem_keep {m : Mem} {a : Addr} {c : Cell} (h : m a = some c) (hc : CellIn S c) : cutMem S m a = some c := by
  simp only [cutMem, h, if_pos hc]

theorem cutAt_keep {m : Mem} {p : Loc} {c : Cell} (h : m.at p = some c) (hc : CellIn S c) : (cutMem S m).at p = some c := by
  cases p with
  | tmp w => exact h
  | heap a =>
    simp only [Mem.at] at h ⊢
    split at h
    · cases h
    · rename_i ha; rw [if_neg ha]; exact cutMem_keep h hc

theorem cutAt_some {m : Mem} {p : Loc} {c : Cell} (h : (cutMem S m).at p = some c) : m.at p = some c ∧ CellIn S c := by
  cases p with
  | tmp w => simp only [Mem.at, Option.some.injEq] at h; subst h; exact ⟨rfl, trivial⟩
  | heap a =>
    simp only [Mem.at] at h ⊢
    split at h
    · cases h
    · rename_i ha; rw [if_neg ha]; exact cutMem_some h

theorem cut_inner (S : TId → Prop) (H : Heap) : Inner S H (cutHeap S H) :=
  ⟨fun _ _ h => (cutMem_some h).1, fun _ _ h => (cutMem_some h).2, fun _ _ _ _ _ _ h => by simp only [cutHeap, if_pos h]⟩

/-! ## Values -/

section Val
variable {E E' : Env} (hS : Shares S E E')
include hS

theorem Shares.direct_mp {t : TId} (ht : S t) (h : Direct E t) : Direct E' t := by
  induction h with
  | ptr hk => exact .ptr (by rw [hS.same _ ht]; exact hk)
  | map hk => exact .map (by rw [hS.same _ ht]; exact hk)
  | word hk hw => exact .word (by rw [hS.same _ ht]; exact hk) (by rw [hS.same _ ht]; exact hw)
  | struct hk _ ih => exact .struct (by rw [hS.same _ ht]; exact hk) (ih (hS.fields _ _ _ ht hk (by simp)))
  | array hk _ ih => exact .array (by rw [hS.same _ ht]; exact hk) (ih (hS.parts _ _ ht (.array hk)))

theorem Shares.direct {t : TId} (ht : S t) : Direct E' t ↔ Direct E t := ⟨hS.symm.direct_mp ht, hS.direct_mp ht⟩

theorem Shares.inl_mp {t : TId} (ht : S t) (h : Inlined E t) : Inlined E' t := by
  induction h with
  | ptr hk => exact .ptr (by rw [hS.same _ ht]; exact hk)
  | map hk => exact .map (by rw [hS.same _ ht]; exact hk)
  | struct hk _ ih => exact .struct (by rw [hS.same _ ht]; exact hk) (ih (hS.fields _ _ _ ht hk (by simp)))

theorem Shares.blank_mp {t : TId} (ht : S t) (h : Blank E t) : Blank E' t := by
  induction h with
  | word hk hw => exact .word (by rw [hS.same _ ht]; exact hk) (by rw [hS.same _ ht]; exact hw)
  | struct hk hsp _ ih => exact .struct (by rw [hS.same _ ht]; exact hk) (by rw [hS.same _ ht]; exact hsp) (ih (hS.fields _ _ _ ht hk (by simp)))
  | array hk _ ih => exact .array (by rw [hS.same _ ht]; exact hk) (ih (hS.parts _ _ ht (.array hk)))

theorem Shares.pointed_mp {t : TId} {w : Addr} (ht : S t) (h : Pointed E t w) : Pointed E' t w := by
  rcases h with ⟨h1, h2⟩ | h
  · exact .inl ⟨fun h => h1 ((hS.direct ht).mp h), h2⟩
  · exact .inr (hS.blank_mp ht h)

theorem Shares.bare_mp {t : TId} (ht : S t) (h : Bare E t) : Bare E' t := by
  unfold Bare at h ⊢
  rw [hS.direct ht, hS.same t ht]; exact h

/-- A value in memory made of the types of the set is there also for a universe that shares them, in any memory that
has the cells with those types. -/
theorem Shares.repr_both {m m' : Mem} (hm : ∀ p c, m.at p = some c → CellIn S c → m'.at p = some c) :
    (∀ {t p v}, Repr E m t p v → S t → MadeOf S v → Repr E' m' t p v) ∧
    (∀ {x v}, ReprE E m x v → MadeOf S v → EfaceIn S x ∧ ReprE E' m' x v) := by
  have both : ∀ {t p v}, Repr E m t p v → S t → MadeOf S v → Repr E' m' t p v := by
    intro t p v h
    refine Spec.Repr.rec (motive_1 := fun t p v _ => S t → MadeOf S v → Repr E' m' t p v)
      (motive_2 := fun x v _ => MadeOf S v → EfaceIn S x ∧ ReprE E' m' x v)
      ?_ ?_ ?_ ?_ ?_ ?_ ?_ ?_ ?_ ?_ ?_ ?_ ?_ ?_ ?_ ?_ ?_ ?_ ?_ ?_ h
    all_goals clear h t p v
    · intro t p b hk hp ht _; exact .bool (by rw [hS.same _ ht]; exact hk) (hm _ _ hp trivial)
    · intro t p b hk hp ht _; exact .int (by rw [hS.same _ ht]; exact hk) (hm _ _ hp trivial)
    · intro t p w b hk hp ht _; exact .float (by rw [hS.same _ ht]; exact hk) (hm _ _ hp trivial)
    · intro t p b hk hp ht _; exact .str (by rw [hS.same _ ht]; exact hk) (hm _ _ hp trivial)
    · intro t p b hk hp ht _; exact .time (by rw [hS.same _ ht]; exact hk) (hm _ _ hp trivial)
    · intro t p es kvs hk hp hl _ _ ih1 ih2 ht hv
      cases hv with
      | smap h1 h2 =>
        have ex : ∀ (i : Nat) e, es[i]? = some e → ∃ kv, kvs[i]? = some kv := fun i e he => by
          have := (List.getElem?_eq_some_iff.mp he).1
          exact ⟨_, List.getElem?_eq_getElem (hl ▸ this)⟩
        refine .smap (by rw [hS.same _ ht]; exact hk) (hm _ _ hp ?_) hl
          (fun i e kv he hkv => (ih1 i e kv he hkv (h1 kv (List.mem_of_getElem? hkv))).2)
          (fun i e kv he hkv => (ih2 i e kv he hkv (h2 kv (List.mem_of_getElem? hkv))).2)
        intro e he
        obtain ⟨i, he⟩ := List.getElem?_of_mem he
        obtain ⟨kv, hkv⟩ := ex i e he
        exact ⟨(ih1 i e kv he hkv (h1 kv (List.mem_of_getElem? hkv))).1, (ih2 i e kv he hkv (h2 kv (List.mem_of_getElem? hkv))).1⟩
    · intro t p e hk hp ht _; exact .nilPtr (by rw [hS.same _ ht]; exact hk) (hm _ _ hp trivial)
    · intro t p e a v hk hp ha _ ih ht hv
      cases hv with
      | ptr hv => exact .ptr (by rw [hS.same _ ht]; exact hk) (hm _ _ hp trivial) ha (ih (hS.parts _ _ ht (.ptr hk)) hv)
    · intro t p k e hk hb hp ht _; exact .nilMap (by rw [hS.same _ ht]; exact hk) (hS.bare_mp ht hb) (hm _ _ hp trivial)
    · intro t p k e a es kvs hk hb hp ha hp2 hl _ _ ih1 ih2 ht hv
      cases hv with
      | map h1 h2 =>
        exact .map (by rw [hS.same _ ht]; exact hk) (hS.bare_mp ht hb) (hm _ _ hp trivial) ha (hm _ _ hp2 trivial) hl
          (fun i e kv he hkv => ih1 i e kv he hkv (hS.parts _ _ ht (.key hk)) (h1 kv (List.mem_of_getElem? hkv)))
          (fun i e kv he hkv => ih2 i e kv he hkv (hS.parts _ _ ht (.val hk)) (h2 kv (List.mem_of_getElem? hkv)))
    · intro t p e hk hp ht _; exact .nilSlice (by rw [hS.same _ ht]; exact hk) (hm _ _ hp trivial)
    · intro t p e d vs hk hp hd _ ih ht hv
      have he := hS.parts _ _ ht (.slice hk)
      cases hv with
      | slice hv =>
        exact .slice (by rw [hS.same _ ht]; exact hk) (hm _ _ hp trivial) hd
          (fun i v hi => by rw [hS.same _ he]; exact ih i v hi he (hv v (List.mem_of_getElem? hi)))
    · intro t p e vs hk hb _ ih ht hv
      have he := hS.parts _ _ ht (.array hk)
      cases hv with
      | array hv =>
        exact .array (by rw [hS.same _ ht]; exact hk) (hS.bare_mp ht hb)
          (fun i v hi => by rw [hS.same _ he]; exact ih i v hi he (hv v (List.mem_of_getElem? hi)))
    · intro t p fs vs hk hsp hb hl _ ih ht hv
      cases hv with
      | struct hv =>
        exact .struct (by rw [hS.same _ ht]; exact hk) (by rw [hS.same _ ht]; exact hsp) (hS.bare_mp ht hb) hl
          (fun i f v hf hi => ih i f v hf hi (hS.fields _ _ _ ht hk (List.mem_of_getElem? hf)) (hv v (List.mem_of_getElem? hi)))
    · intro t p x v hk hp _ ih ht hv
      exact .eface (by rw [hS.same _ ht]; exact hk) (hm _ _ hp (ih hv).1) (ih hv).2
    · intro t p n x v hk hp hn _ ih ht hv
      exact .iface (by rw [hS.same _ ht]; exact hk) (hm _ _ hp (ih hv).1) (by rw [hS.same _ ht]; exact hn) (ih hv).2
    · intro t p hk hb ht _; exact .opaque (by rw [hS.same _ ht]; exact hk) (hS.bare_mp ht hb)
    · intro _; exact ⟨fun t w h => (by cases h), .nil⟩
    · intro t w v hi _ ih hv
      cases hv with
      | iface ht hv => exact ⟨fun t' w' h => (by cases h; exact ht), .direct (hS.inl_mp ht hi) (ih ht hv)⟩
    · intro t w v hi _ ih hv
      cases hv with
      | iface ht hv => exact ⟨fun t' w' h => (by cases h; exact ht), .indirect (hS.pointed_mp ht hi) (ih ht hv)⟩
  refine ⟨both, ?_⟩
  intro x v h hv
  cases h with
  | nil => exact ⟨fun t w h => (by cases h), .nil⟩
  | direct hi h =>
    cases hv with
    | iface ht hv => exact ⟨fun t' w' h => (by cases h; exact ht), .direct (hS.inl_mp ht hi) (both h ht hv)⟩
  | indirect hi h =>
    cases hv with
    | iface ht hv => exact ⟨fun t' w' h => (by cases h; exact ht), .indirect (hS.pointed_mp ht hi) (both h ht hv)⟩
end Val

theorem all_of_index {α β : Type} {P : β → Prop} {es : List α} {vs : List β} (hl : es.length = vs.length)
    (h : ∀ (i : Nat) e v, es[i]? = some e → vs[i]? = some v → P v) : ∀ v ∈ vs, P v := by
  intro v hv
  obtain ⟨i, hi⟩ := List.getElem?_of_mem hv
  have := (List.getElem?_eq_some_iff.mp hi).1
  exact h i _ v (List.getElem?_eq_getElem (hl ▸ this)) hi

/-- Values in a memory with the types of the set only are made of them. -/
theorem madeOf_repr {E : Env} {m : Mem} (hm : ∀ p c, m.at p = some c → CellIn S c) {t : TId} {p : Loc} {v : Val} (h : Repr E m t p v) :
    MadeOf S v := by
  refine Spec.Repr.rec (motive_1 := fun t p v _ => MadeOf S v)
    (motive_2 := fun x v _ => EfaceIn S x → MadeOf S v)
    ?_ ?_ ?_ ?_ ?_ ?_ ?_ ?_ ?_ ?_ ?_ ?_ ?_ ?_ ?_ ?_ ?_ ?_ ?_ ?_ h
  all_goals clear h t p v
  · intros; exact .bool
  · intros; exact .int
  · intros; exact .float
  · intros; exact .str
  · intros; exact .time
  · intro t p es kvs hk hp hl _ _ ih1 ih2
    have hc := hm _ _ hp
    exact .smap (all_of_index hl fun i e v he hv => ih1 i e v he hv (hc e (List.mem_of_getElem? he)).1)
      (all_of_index hl fun i e v he hv => ih2 i e v he hv (hc e (List.mem_of_getElem? he)).2)
  · intros; exact .nil
  · intro t p e a v _ _ _ _ ih; exact .ptr ih
  · intros; exact .nil
  · intro t p k e a es kvs _ _ _ _ _ hl _ _ ih1 ih2
    exact .map (all_of_index hl ih1) (all_of_index hl ih2)
  · intros; exact .nil
  · intro t p e d vs _ _ _ _ ih
    exact .slice fun v hv => by obtain ⟨i, hi⟩ := List.getElem?_of_mem hv; exact ih i v hi
  · intro t p e vs _ _ _ ih
    exact .array fun v hv => by obtain ⟨i, hi⟩ := List.getElem?_of_mem hv; exact ih i v hi
  · intro t p fs vs _ _ _ hl _ ih
    exact .struct (all_of_index hl ih)
  · intro t p x v _ hp _ ih; exact ih (hm _ _ hp)
  · intro t p n x v _ hp _ _ ih; exact ih (hm _ _ hp)
  · intros; exact .opaque
  · intros; exact .nil
  · intro t w v _ _ ih hx; exact .iface (hx t w rfl) ih
  · intro t w v _ _ ih hx; exact .iface (hx t w rfl) ih

/-! ## The setting -/

theorem Family.cut (F : Family W.E W.ptrTo S) : Shares S W.E (cutWorld S W).E := Family.shares F (cut_alike S W)

theorem cut_ready (F : Family W.E W.ptrTo S) (R : ReadyFor S W H M) : Ready (cutWorld S W) (cutHeap S H) (cutMeth S M) := by
  have hS := Family.cut F
  have spec : ∀ {t s}, (cutEnv S W.E t).special = some s → S t ∧ (W.E t).special = some s := by
    intro t s h
    by_cases ht : S t
    · rw [cutEnv_in ht] at h; exact ⟨ht, h⟩
    · rcases cutEnv_out (E := W.E) ht with ⟨e, he, -⟩ | he <;> rw [he] at h <;> cases h
  refine ⟨?_, ?_, ?_, R.tab, R.sort, ?_⟩
  · refine ⟨?_, ?_, ?_, ?_, ?_, ?_, ?_⟩
    · intro t
      show (cutEnv S W.E (W.ptrTo t)).kind = _
      have hk := R.types.ptrTo_kind t
      by_cases ht : S (W.ptrTo t)
      · rw [cutEnv_in ht]; exact hk
      · simp only [cutEnv, if_neg ht, hk]
    · intro t h
      obtain ⟨ht, h⟩ := spec h
      show (cutEnv S W.E t).kind = _
      rw [cutEnv_in ht]; exact R.types.duration t h
    · intro t h
      obtain ⟨ht, h⟩ := spec h
      show (cutEnv S W.E t).kind = _
      rw [cutEnv_in ht]; exact R.types.number t h
    · intro t h
      obtain ⟨ht, h⟩ := spec h
      obtain ⟨e, h1, h2⟩ := R.types.rawMessage t h
      have he := F.parts t e ht (.slice h1)
      refine ⟨e, ?_, ?_⟩
      · show (cutEnv S W.E t).kind = _
        rw [cutEnv_in ht]; exact h1
      · show (cutEnv S W.E e).kind = _
        rw [cutEnv_in he]; exact h2
    · intro t h
      obtain ⟨ht, h⟩ := spec h
      obtain ⟨fs, h1, h2⟩ := R.types.time t h
      refine ⟨fs, ?_, fun sf hsf he => h2 sf hsf ((hS.encodable (F.fields t fs sf ht h1 hsf)).mp he)⟩
      show (cutEnv S W.E t).kind = _
      rw [cutEnv_in ht]; exact h1
    · intro t h
      obtain ⟨ht, h⟩ := spec h
      obtain ⟨fs, h1, h2⟩ := R.types.syncMap t h
      refine ⟨fs, ?_, fun sf hsf he => h2 sf hsf ((hS.encodable (F.fields t fs sf ht h1 hsf)).mp he)⟩
      show (cutEnv S W.E t).kind = _
      rw [cutEnv_in ht]; exact h1
    · intro t
      show (cutEnv S W.E t).kind = _ → (cutEnv S W.E t).size = _
      by_cases ht : S t
      · rw [cutEnv_in ht]; exact R.types.byteSize t
      · rcases cutEnv_out (E := W.E) ht with ⟨e, he, -⟩ | he <;> rw [he] <;> intro h <;> cases h
  · intro t
    by_cases ht : S t
    · exact (hS.apart ht).mpr (R.apart t ht)
    · intro m p i hm
      obtain ⟨p', u, i', r, tagged, -, hp, hc, -, -⟩ := hm
      obtain ⟨⟨p2, q2, hr, -, -⟩, ⟨fs, hf, -⟩, -⟩ := hp
      have nf : ∀ fs, ¬ HasFields (cutWorld S W).E t fs := by
        intro fs hf
        have hf : (cutEnv S W.E t).kind = .struct fs := hf
        rcases cutEnv_out (E := W.E) ht with ⟨e, he, -⟩ | he <;> rw [he] at hf <;> cases hf
      have : u = t := by
        clear hc hf
        induction hr with
        | here => rfl
        | step _ hf _ _ ih =>
          rw [ih] at hf
          exact absurd hf (nf _)
      subst this
      exact absurd hf (nf fs)
  · obtain ⟨rank, h1, h2⟩ := R.nest
    refine ⟨rank, ?_, h2⟩
    intro t f hk
    have hk : (cutEnv S W.E t).kind = .struct [f] := hk
    by_cases ht : S t
    · rw [cutEnv_in ht] at hk; exact h1 t f ht hk
    · rcases cutEnv_out (E := W.E) ht with ⟨e, he, -⟩ | he <;> rw [he] at hk <;> cases hk
  · intro path m ctx t w v dst hv
    simp only [cutHeap, cutMeth]
    split
    · rename_i ht
      have back : ∀ {p}, Repr (cutWorld S W).E (cutHeap S H).mem t p v → MadeOf S v ∧ Repr W.E H.mem t p v := by
        intro p h
        have hmo := madeOf_repr (fun p c hc => (cutAt_some hc).2) h
        exact ⟨hmo, ((hS.symm).repr_both (fun p c hc _ => (cutAt_some hc).1)).1 h ht hmo⟩
      cases hv with
      | direct hd h => exact R.meth path m ctx t _ v dst ht (.direct ((hS.direct ht).mp hd) (back h).2) (back h).1
      | indirect hd h => exact R.meth path m ctx t _ v dst ht (.indirect (fun h' => hd ((hS.direct ht).mpr h')) (back h).2) (back h).1
    · rfl

theorem cut_repr (F : Family W.E W.ptrTo S) {x : Eface} {v : Val} (hv : MadeOf S v) (h : ReprE W.E H.mem x v) :
    EfaceIn S x ∧ ReprE (cutWorld S W).E (cutHeap S H).mem x v :=
  ((Family.cut F).repr_both fun _ _ hc hin => cutAt_keep hc hin).2 h hv

end Jettison.Proofs
