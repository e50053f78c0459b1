import Verif.Proofs.LocalV
import Verif.Props.Api
import Verif.Props.Recorded
import Verif.Props.TrapsEx

/-!
# C72: only the value matters, and the types it is made of

The other types of the program, the rest of the memory and the methods of other types make no difference. So
what the theorems ask of all types of a program (`Ready`) is needed only of those the value is made of (`ReadyFor`).
-/

namespace Jettison.Props
open Jettison Jettison.Spec Jettison.Model Jettison.Proofs

variable {S : TId → Prop} {W W' : World} {H H' : Heap} {M : MethV}

/-- The encoding of an interface value in the two programs. -/
theorem common_json (F : Family W.E W.ptrTo S) (A : InCommon S W W') (I : Inner S H H') {x : Eface} (hx : EfaceIn S x) (o : EncOpts) (n : Nat)
    (path : Path) (dst : Bytes) (h : appendJSON W' (run W' H' o n) path x dst ≠ .bad) :
    appendJSON W (run W H o n) path x dst = appendJSON W' (run W' H' o n) path x dst := by
  rcases json_ble F A (fun path i hi p dst => run_ble F A I o n path i hi p dst) path hx dst with h' | h'
  · exact absurd h' h
  · exact h'.symm

theorem marshal_bad {r : Res} : marshalRet r = .bad ↔ r = .bad := by cases r <;> simp [marshalRet]
theorem append_bad {r : Res} : appendRet r = .bad ↔ r = .bad := by cases r <;> simp [appendRet]

/-- C72: a call in a program that has the types of a family in common with another one, on a part of the other's memory
with interfaces of these types only, misreads or gives what it gives there. -/
theorem C72_frame (F : Family W.E W.ptrTo S) (A : InCommon S W W') (I : Inner S H H') {x : Eface} (hx : EfaceIn S x) (n : Nat)
    (opts : List (Option Opt)) (dst : Bytes) :
    (marshalOpts W' H' n x opts ≠ .bad → marshalOpts W H n x opts = marshalOpts W' H' n x opts) ∧
    (appendOpts W' H' n dst x opts ≠ .bad → appendOpts W H n dst x opts = appendOpts W' H' n dst x opts) := by
  cases x with
  | none => exact ⟨fun _ => rfl, fun _ => rfl⟩
  | some y =>
    simp only [marshalOpts, appendOpts]
    cases prepare opts with
    | error e => exact ⟨fun _ => rfl, fun _ => rfl⟩
    | ok o =>
      simp only [marshalJSON, appendTop]
      refine ⟨fun h => ?_, fun h => ?_⟩
      · rw [common_json F A I hx o n [] [] (fun h' => h (marshal_bad.mpr h'))]
      · rw [common_json F A I hx o n [] dst (fun h' => h (append_bad.mpr h'))]

/-- C72: if all interfaces in memory have types of the family, the calls are the same whatever the other types of the
program are, and whatever their methods do. -/
theorem C72_other_types (F : Family W.E W.ptrTo S) (A : InCommon S W W') (hm : H'.mem = H.mem)
    (hd : ∀ a c, H.mem a = some c → CellIn S c)
    (hM : ∀ path m ctx t w dst, S t → H'.meth path m ctx t w dst = H.meth path m ctx t w dst)
    {x : Eface} (hx : EfaceIn S x) (n : Nat) (opts : List (Option Opt)) (dst : Bytes) :
    marshalOpts W' H' n x opts = marshalOpts W H n x opts ∧ appendOpts W' H' n dst x opts = appendOpts W H n dst x opts := by
  have I : Inner S H H' := ⟨fun a c h => by rw [← hm]; exact h, fun a c h => hd a c (by rw [← hm]; exact h), hM⟩
  have I' : Inner S H' H := ⟨fun a c h => by rw [hm]; exact h, hd, fun path m ctx t w dst h => (hM path m ctx t w dst h).symm⟩
  have hS := Family.shares F A
  have F' : Family W'.E W'.ptrTo S := ⟨hS.symm.parts, hS.symm.fields, fun t ht => by rw [A.ptrTo t ht]; exact F.ptrTo t ht⟩
  have A' : InCommon S W' W := ⟨fun t h => (A.types t h).symm, fun t h => (A.ptrTo t h).symm, by rw [A.rest]⟩
  have h1 := C72_frame F A I hx n opts dst
  have h2 := C72_frame F' A' I' hx n opts dst
  refine ⟨?_, ?_⟩
  · by_cases hb : marshalOpts W' H' n x opts = .bad
    · by_cases hb' : marshalOpts W H n x opts = .bad
      · rw [hb, hb']
      · exact h2.1 hb'
    · exact (h1.1 hb).symm
  · by_cases hb : appendOpts W' H' n dst x opts = .bad
    · by_cases hb' : appendOpts W H n dst x opts = .bad
      · rw [hb, hb']
      · exact h2.2 hb'
    · exact (h1.2 hb).symm

/-- A program that has the family in common with one that is ready for it. -/
theorem ReadyFor.common (R : ReadyFor S W H M) (F : Family W.E W.ptrTo S) (A : InCommon S W W') (G : GoTypes W'.E W'.ptrTo) :
    ReadyFor S W' H M := by
  have hS := Family.shares F A
  refine ⟨G, ?_, ?_, ?_, ?_, ?_⟩
  · intro t ht
    rw [A.rest]
    exact (hS.apart ht).mpr (R.apart t ht)
  · obtain ⟨rank, h1, h2⟩ := R.nest
    refine ⟨rank, fun t f ht hk => h1 t f ht (by rw [← A.types t ht]; exact hk), ?_⟩
    rw [A.rest]; exact h2
  · rw [A.rest]; exact R.tab
  · rw [A.rest]; exact R.sort
  · intro path m ctx t w v dst ht hr hv
    have tr := (hS.symm).repr_both (m := H.mem) (m' := H.mem) (fun p c hc _ => hc)
    refine R.meth path m ctx t w v dst ht ?_ hv
    cases hr with
    | direct hd h => exact .direct ((hS.direct ht).mp hd) (tr.1 h ht hv)
    | indirect hd h => exact .indirect (fun h' => hd ((hS.direct ht).mpr h')) (tr.1 h ht hv)

/-- The conditions on all types give those on the types of a family. -/
theorem Ready.for (R : Ready W H M) (S : TId → Prop) : ReadyFor S W H M := by
  obtain ⟨rank, h1, h2⟩ := R.nest
  exact ⟨R.types, fun t _ => R.apart t, ⟨rank, fun t f _ => h1 t f, h2⟩, R.tab, R.sort,
    fun path m ctx t w v dst _ h _ => R.meth path m ctx t w v dst h⟩

/-- The call in the program cut down to the types of the family. -/
theorem cut_calls (F : Family W.E W.ptrTo S) (R : ReadyFor S W H M) {x : Eface} {v : Val} (h : ReprE W.E H.mem x v) (hv : MadeOf S v)
    (n : Nat) (opts : List (Option Opt)) (dst : Bytes) : marshalOpts W H n x opts = marshalOpts (cutWorld S W) (cutHeap S H) n x opts ∧
      appendOpts W H n dst x opts = appendOpts (cutWorld S W) (cutHeap S H) n dst x opts := by
  have R' := cut_ready F R
  obtain ⟨hx, h'⟩ := cut_repr F hv h
  have key := C72_frame F (cut_alike S W) (cut_inner S H) hx n opts dst
  refine ⟨key.1 ((C36_reads_the_value_partial R' R' h' h' n opts).1), key.2 ?_⟩
  have nb : ∀ o, appendJSON (cutWorld S W) (run (cutWorld S W) (cutHeap S H) o n) [] x dst ≠ .bad :=
    fun o => appendJSON_nobad (run_sound R' n).2 h' _ _
  cases x with
  | none => simp [appendOpts]
  | some y =>
    simp only [appendOpts]
    cases prepare opts with
    | error e => simp
    | ok o => simp only [appendTop, ne_eq, append_bad]; exact nb o

/-- C72: every call on a value made of types of a family that meet the conditions is the call on the same value in a
program all of whose types meet them. So the theorems about such programs hold of it. -/
theorem C72_part (F : Family W.E W.ptrTo S) (R : ReadyFor S W H M) {x : Eface} {v : Val} (h : ReprE W.E H.mem x v) (hv : MadeOf S v) :
    ∃ W' H' M', InCommon S W W' ∧ Inner S H H' ∧ (∀ path m ctx t v dst, S t → M' path m ctx t v dst = M path m ctx t v dst) ∧
      Ready W' H' M' ∧ ReprE W'.E H'.mem x v ∧
      ∀ (n : Nat) (opts : List (Option Opt)) (dst : Bytes), marshalOpts W H n x opts = marshalOpts W' H' n x opts ∧
        appendOpts W H n dst x opts = appendOpts W' H' n dst x opts :=
  ⟨cutWorld S W, cutHeap S H, cutMeth S M, cut_alike S W, cut_inner S H, fun path m ctx t v dst ht => by simp only [cutMeth, if_pos ht],
    cut_ready F R, (cut_repr F hv h).2, cut_calls F R h hv⟩

/-- C72: two programs that have the types of the value in common, with memory that holds it wherever it is, give the same
result; neither misreads. -/
theorem C72_same_value (F : Family W.E W.ptrTo S) (A : InCommon S W W') (R : ReadyFor S W H M) (R' : ReadyFor S W' H' M)
    {x x' : Eface} {v : Val} (h : ReprE W.E H.mem x v) (h' : ReprE W'.E H'.mem x' v) (hv : MadeOf S v) (n : Nat) (opts : List (Option Opt)) :
    marshalOpts W H n x opts ≠ .bad ∧ marshalOpts W' H' n x' opts = marshalOpts W H n x opts := by
  have hS := Family.shares F A
  have F' : Family W'.E W'.ptrTo S := ⟨hS.symm.parts, hS.symm.fields, fun t ht => by rw [A.ptrTo t ht]; exact F.ptrTo t ht⟩
  have A' : InCommon S W' W := ⟨fun t h => (A.types t h).symm, fun t h => (A.ptrTo t h).symm, by rw [A.rest]⟩
  -- both are calls in the first program cut down to the family
  have R1 := cut_ready F R
  have R2 := cut_ready F (ReadyFor.common R' F' A' R.types)
  have AC : InCommon S W' (cutWorld S W) :=
    ⟨fun t ht => by rw [← A.types t ht |>.symm]; exact cutEnv_in ht, fun t ht => (A.ptrTo t ht).symm, by simp only [cutWorld]; rw [A.rest]⟩
  obtain ⟨hx, r1⟩ := cut_repr F hv h
  have r2 : EfaceIn S x' ∧ ReprE (cutWorld S W).E (cutHeap S H').mem x' v :=
    ((Family.shares F' AC).repr_both fun _ _ hc hin => cutAt_keep hc hin).2 h' hv
  have key := C36_reads_the_value_partial R1 R2 r1 r2.2 n opts
  have e1 := (C72_frame F (cut_alike S W) (cut_inner S H) hx n opts []).1 key.1
  have e2 := (C72_frame F' AC (cut_inner S H') r2.1 n opts []).1 (by rw [← key.2]; exact key.1)
  rw [e1, e2]
  exact ⟨key.1, key.2.symm⟩

/-! ## A program with a fork among its types -/

/-- The types of `besideDefs`, and beside them those of `forkEnv` as 100, 102, ..., 110. -/
def mixedE : Env := fun t =>
  if t = 100 then { kind := .struct [emb (b! "A") 102 0] }
  else if t = 102 then { kind := .struct [emb (b! "B") 104 0] }
  else if t = 104 then { kind := .struct [emb (b! "C") 106 0] }
  else if t = 106 then { kind := .struct [emb (b! "D") 108 0, emb (b! "E") 110 8] }
  else if t = 108 then { kind := .struct [fld (b! "X") 0 0] }
  else if t = 110 then { kind := .struct [fld (b! "Y") 0 0] }
  else univE besideDefs t

def mixedW : World := { univW besideDefs with E := mixedE }

/-- The family of the types of `besideDefs`. -/
inductive BesideS : TId → Prop
  | own {t} : t ∈ [0, 2, 4, 6, 8, 10, 12, 14, 16] → BesideS t
  | ptr {t} : BesideS t → BesideS (2 * t + 1)

theorem beside_ptrKind (t : TId) : (univE besideDefs (2 * t + 1)).kind = .ptr t := (univ_types beside_ok).ptrTo_kind t

theorem beside_family : Family (univE besideDefs) (univW besideDefs).ptrTo BesideS where
  parts t u ht hp := by
    cases ht with
    | own h =>
      simp only [List.mem_cons, List.not_mem_nil, or_false] at h
      rcases h with rfl | rfl | rfl | rfl | rfl | rfl | rfl | rfl | rfl <;> cases hp <;>
        (rename_i h; cases h) <;> first | exact .own (by decide) | exact .ptr (.own (t := 0) (by decide))
    | ptr h =>
      cases hp with
      | ptr k => rw [beside_ptrKind] at k; cases k; exact h
      | slice k => rw [beside_ptrKind] at k; cases k
      | array k => rw [beside_ptrKind] at k; cases k
      | key k => rw [beside_ptrKind] at k; cases k
      | val k => rw [beside_ptrKind] at k; cases k
  fields t fs sf ht hf hs := by
    cases ht with
    | own h =>
      simp only [List.mem_cons, List.not_mem_nil, or_false] at h
      rcases h with rfl | rfl | rfl | rfl | rfl | rfl | rfl | rfl | rfl <;> cases hf
      simp only [List.mem_cons, List.not_mem_nil, or_false] at hs
      rcases hs with rfl | rfl | rfl | rfl | rfl
      · exact .own (t := 4) (by decide)
      · exact .own (t := 6) (by decide)
      · exact .own (t := 10) (by decide)
      · exact .ptr (.own (t := 8) (by decide))
      · exact .own (t := 16) (by decide)
    | ptr h => unfold HasFields at hf; rw [beside_ptrKind] at hf; cases hf
  ptrTo t ht := .ptr ht

theorem besideS_ne {t : TId} (h : BesideS t) : t ≠ 100 ∧ t ≠ 102 ∧ t ≠ 104 ∧ t ≠ 106 ∧ t ≠ 108 ∧ t ≠ 110 := by
  cases h with
  | own h =>
    simp only [List.mem_cons, List.not_mem_nil, or_false] at h
    rcases h with rfl | rfl | rfl | rfl | rfl | rfl | rfl | rfl | rfl <;> decide
  | @ptr u h =>
    have odd : ∀ a k : Nat, 2 * a + 1 ≠ 2 * k := by omega
    have key := odd u
    exact ⟨key 50, key 51, key 52, key 53, key 54, key 55⟩

theorem mixed_common : InCommon BesideS (univW besideDefs) mixedW where
  types t ht := by
    obtain ⟨h1, h2, h3, h4, h5, h6⟩ := besideS_ne ht
    show mixedE t = univE besideDefs t
    simp only [mixedE, if_neg h1, if_neg h2, if_neg h3, if_neg h4, if_neg h5, if_neg h6]
  ptrTo _ _ := rfl
  rest := rfl

theorem mixed_types : GoTypes mixedE mixedW.ptrTo := by
  have none' : ∀ t, (univE besideDefs t).special = none :=
    univ_all (P := fun _ d => d.special = none) (fun _ _ => rfl) (fun _ => rfl) (by decide +kernel)
  have none : ∀ t s, (mixedE t).special ≠ some s := by
    intro t s
    unfold mixedE
    repeat' split
    all_goals first | (simp; done) | (rw [none']; simp)
  refine ⟨?_, fun t h => absurd h (none t _), fun t h => absurd h (none t _), fun t h => absurd h (none t _),
    fun t h => absurd h (none t _), fun t h => absurd h (none t _), ?_⟩
  · intro t
    have odd : ∀ a k : Nat, 2 * a + 1 ≠ 2 * k := by omega
    have key := odd t
    show (mixedE (2 * t + 1)).kind = .ptr t
    simp only [mixedE, if_neg (key 50), if_neg (key 51), if_neg (key 52), if_neg (key 53), if_neg (key 54), if_neg (key 55)]
    exact beside_ptrKind t
  · intro t
    unfold mixedE
    repeat' split
    all_goals first | (intro h; cases h; done) | exact (univ_types beside_ok).byteSize t

/-- The field X of type 100 is read where Y is. -/
theorem mixed_fork : ¬ RoutesApart asciiTab.isLetter asciiTab.isDigit growDouble mixedE 100 := by
  intro ha
  have hall := (C71_type_iff (fuel := 8) (sort := isort) asciiOk isort_ok
    (l := [⟨0, b! "X", false, [0, 0, 0, 0, 0], false, false, false, [⟨0, false⟩, ⟨0, false⟩, ⟨0, false⟩, ⟨8, false⟩, ⟨0, false⟩]⟩,
      ⟨0, b! "Y", false, [0, 0, 0, 1, 0], false, false, false, [⟨0, false⟩, ⟨0, false⟩, ⟨0, false⟩, ⟨8, false⟩, ⟨0, false⟩]⟩])
    (by decide +kernel)).mpr ha
  obtain ⟨u, i, sf, ⟨p, q, hr, hpath, he⟩, -, -⟩ := hall _ List.mem_cons_self
  have hp : p = [0, 0, 0, 0] := (append_single_inj (p := [0, 0, 0, 0]) (i := 0) hpath).1.symm
  subst hp
  have step : ∀ {p u q} (fs : List FieldDef) (sf : FieldDef) (v : TId), Reaches asciiTab.isLetter asciiTab.isDigit mixedE 100 p u q →
      (mixedE u).kind = .struct fs → fs[0]? = some sf → cls mixedE asciiTab sf = .embed v false →
      Reaches asciiTab.isLetter asciiTab.isDigit mixedE 100 (p ++ [0]) v (q ++ [(sf.offset, false)]) :=
    fun fs sf v h1 h2 h3 h4 => .step h1 h2 h3 ((cls_embed asciiOk).mp h4)
  have r1 := step [emb (b! "A") 102 0] (emb (b! "A") 102 0) 102 .here rfl rfl (by decide +kernel)
  have r2 := step [emb (b! "B") 104 0] (emb (b! "B") 104 0) 104 r1 rfl rfl (by decide +kernel)
  have r3 := step [emb (b! "C") 106 0] (emb (b! "C") 106 0) 106 r2 rfl rfl (by decide +kernel)
  have r4 := step [emb (b! "D") 108 0, emb (b! "E") 110 8] (emb (b! "D") 108 0) 108 r3 rfl rfl (by decide +kernel)
  have hq := (reaches_functional asciiOk hr r4 rfl).2
  rw [hq] at he
  simp [emb] at he

/-- Memory with a value of the types of `besideDefs`, and an interface that holds a value of type 100. -/
def mixedH : Heap := univHeap besideDefs besideMeth ((900, .eface (some (100, 1000))) :: besideCells)

theorem mixed_ready : ReadyFor BesideS mixedW mixedH (univM besideMeth) :=
  ReadyFor.common (Ready.for (univ_ready beside_ok besideMeth ((900, .eface (some (100, 1000))) :: besideCells)) BesideS)
    beside_family mixed_common mixed_types

def besideV : Val := .struct [.nil, .array [.ptr (.int (.int 5))], .iface 0 (.int (.int 5)), .nil, .slice []]

theorem beside_made : MadeOf BesideS (.iface 12 besideV) := by
  refine .iface (.own (by decide)) (.struct fun v hv => ?_)
  simp only [List.mem_cons, List.not_mem_nil, or_false] at hv
  rcases hv with rfl | rfl | rfl | rfl | rfl
  · exact .nil
  · refine .array fun v hv => ?_
    obtain rfl := List.mem_singleton.mp hv
    exact .ptr .int
  · exact .iface (.own (by decide)) .int
  · exact .nil
  · exact .slice fun v hv => nomatch hv

theorem mixed_repr : ReprE mixedE mixedH.mem (some (12, 100)) (.iface 12 besideV) := by
  have h0 : ReprE (univE besideDefs) mixedH.mem (some (12, 100)) (.iface 12 besideV) := univ_repr 6 (by decide +kernel)
  exact (((Family.shares beside_family mixed_common).repr_both fun _ _ hc _ => hc).2 h0 beside_made).2

/-- The program has a type whose fields are read at wrong places, so not all its types meet the conditions, and an
interface of this type is in memory. Those of the value do: the call is as in the program without the other types. -/
example : (∀ M, ¬ Ready mixedW mixedH M) ∧ mixedH.mem 900 = some (.eface (some (100, 1000))) ∧
    ∀ n opts, marshalOpts mixedW mixedH n (some (12, 100)) opts =
      marshalOpts (univW besideDefs) (univHeap besideDefs besideMeth besideCells) n (some (12, 100)) opts :=
  ⟨fun M R => mixed_fork (R.apart 100), rfl, fun n opts =>
    (C72_same_value beside_family mixed_common (Ready.for (univ_ready beside_ok besideMeth besideCells) BesideS) mixed_ready beside_repr
      mixed_repr beside_made n opts).2⟩

end Jettison.Props
