import Verif.Proofs.Talk
import Verif.Proofs.Invoked

/-!
# No two calls of methods are at the same step of the encoding

So methods with a state are methods that know the step, for one encoding.
-/

namespace Jettison.Proofs
open Jettison Jettison.Model Jettison.Spec

variable {W : World} {m : Mem} {o : EncOpts}

/-- The calls are at different steps, all of them among `S`. -/
def Once {α : Type} (S : Path → Prop) (c : Talk α) : Prop :=
  ∀ l a, Course c l a → (∀ x ∈ l, S x.1.path) ∧ (l.map fun x => x.1.path).Nodup

/-- The steps at or after choice `i` of the step `pre`. -/
def From (pre : Path) (i : Nat) (p : Path) : Prop := ∃ j, i ≤ j ∧ (j :: pre) <:+ p

theorem from_at {pre p : Path} {i : Nat} (h : (i :: pre) <:+ p) : From pre i p := ⟨i, Nat.le_refl i, h⟩

theorem from_le {pre p : Path} {i k : Nat} (hk : i ≤ k) (h : From pre k p) : From pre i p := by
  obtain ⟨j, h1, h2⟩ := h
  exact ⟨j, Nat.le_trans hk h1, h2⟩

theorem from_suffix {pre p : Path} {i : Nat} (h : From pre i p) : pre <:+ p := by
  obtain ⟨j, -, h⟩ := h
  exact (List.suffix_cons j pre).trans h

theorem from_apart {pre p : Path} {i k : Nat} (hk : i < k) (h : (i :: pre) <:+ p) : ¬ From pre k p := by
  rintro ⟨j, h1, h2⟩
  have := List.suffix_of_suffix_length_le h h2 (by simp)
  have := this.eq_of_length (by simp)
  cases this
  omega

theorem once_done {α : Type} {S : Path → Prop} {a : α} : Once S (.done a) := by
  intro l a h
  cases h
  exact ⟨fun x hx => (nomatch hx), List.nodup_nil⟩

theorem once_mono {α : Type} {S T : Path → Prop} {c : Talk α} (h : Once S c) (hs : ∀ p, S p → T p) : Once T c := fun l a hc =>
  ⟨fun x hx => hs _ ((h l a hc).1 x hx), (h l a hc).2⟩

theorem once_bind {α β : Type} {S T : Path → Prop} {c : Talk α} {f : α → Talk β} (h : Once S c) (h' : ∀ a, Once T (f a)) (hd : ∀ p, S p → ¬ T p) :
    Once (fun p => S p ∨ T p) (c.bind f) := by
  intro l b hc
  obtain ⟨a, l1, l2, h1, h2, rfl⟩ := course_bind hc
  obtain ⟨a1, a2⟩ := h _ _ h1
  obtain ⟨b1, b2⟩ := h' a _ _ h2
  refine ⟨fun x hx => (List.mem_append.mp hx).elim (fun h => .inl (a1 x h)) (fun h => .inr (b1 x h)), ?_⟩
  rw [List.map_append, List.nodup_append]
  refine ⟨a2, b2, fun p hp q hq e => ?_⟩
  obtain ⟨x, hx, rfl⟩ := List.mem_map.mp hp
  obtain ⟨y, hy, rfl⟩ := List.mem_map.mp hq
  exact hd _ (a1 x hx) (e ▸ b1 y hy)

theorem once_then {α β : Type} {S : Path → Prop} {c : Talk α} {f : α → Talk β} (h : Once S c) (h' : ∀ a, Once (fun _ => False) (f a)) : Once S (c.bind f) :=
  once_mono (once_bind h h' fun _ _ h => h) fun _ h => h.elim id False.elim

theorem once_andThen {S T : Path → Prop} {c : Talk Res} {f : Bytes → Talk Res} (h : Once S c) (h' : ∀ b, Once T (f b)) (hd : ∀ p, S p → ¬ T p) :
    Once (fun p => S p ∨ T p) (c.andThen f) := by
  refine once_bind h (fun a => ?_) hd
  cases a with
  | ok b => exact h' b
  | _ => exact once_done

theorem once_finish {S : Path → Prop} {c : Talk Res} {f : Bytes → Res} (h : Once S c) : Once S (c.andThen fun b => .done (f b)) :=
  once_mono (once_andThen h (fun _ => once_done (S := fun _ => False)) fun _ _ h => h) fun _ h => h.elim id False.elim

theorem once_withRead {α : Type} {S : Path → Prop} {x : Option α} {f : α → Talk Res} (h : ∀ a, Once S (f a)) : Once S (withReadT x f) := by
  cases x with
  | none => exact once_done
  | some a => exact h a

/-- The instructions called make their calls at different steps below the one they are called at. -/
def OnceRec (rec : RecT) : Prop := ∀ path i p dst, Once (fun q => path <:+ q) (rec path i p dst)

variable {rec : RecT}

theorem once_structLoop (h : OnceRec rec) (path : Path) (p : Loc) : ∀ (fs : List FInstr) (i : Nat) (first : Bool) (dst : Bytes),
    Once (From path i) (structLoopT m o rec path p i fs first dst)
  | [], _, _, _ => once_done
  | f :: fs, i, first, dst => by
    simp only [structLoopT]
    split
    · exact once_done
    · exact once_mono (once_structLoop h path p fs (i + 1) first dst) fun _ => from_le (Nat.le_succ i)
    · refine once_mono (once_andThen (h (i :: path) _ _ _) (T := From path (i + 1)) (fun b => ?_) fun _ => from_apart (Nat.lt_succ_self i)) fun q hq =>
        hq.elim from_at (from_le (Nat.le_succ i))
      split <;> exact once_structLoop h path p fs (i + 1) false _

theorem once_arrayLoop (h : OnceRec rec) (path : Path) (ins : Instr) (es : Nat) (p : Loc) : ∀ (n i : Nat) (dst : Bytes),
    Once (From path i) (arrayLoopT rec path ins es p i n dst)
  | 0, _, _ => once_done
  | n + 1, i, _ => once_mono (once_andThen (h (i :: path) _ _ _) (T := From path (i + 1)) (fun b => once_arrayLoop h path ins es p n (i + 1) b) fun _ =>
      from_apart (Nat.lt_succ_self i)) fun _ hq => hq.elim from_at (from_le (Nat.le_succ i))

theorem once_array (h : OnceRec rec) (path : Path) (ins : Instr) (es len : Nat) (isba : Bool) (p : Loc) (dst : Bytes) :
    Once (fun q => path <:+ q) (encodeArrayT m o rec path ins es len isba p dst) := by
  simp only [encodeArrayT]
  split
  · exact once_withRead fun _ => once_done
  · exact once_mono (once_arrayLoop h path ins es p len 0 dst) fun _ => from_suffix

variable {α : Type} {kf vf : Nat → α → Bytes → Talk Res}

theorem once_unsortedLoop (path : Path) (hk : ∀ n e dst, Once (fun q => ((2 * n) :: path) <:+ q) (kf n e dst))
    (hv : ∀ n e dst, Once (fun q => ((2 * n + 1) :: path) <:+ q) (vf n e dst)) : ∀ (es : List α) (n : Nat) (dst : Bytes),
    Once (From path (2 * n)) (unsortedLoopT kf vf n es dst)
  | [], _, _ => once_done
  | e :: es, n, dst => by
    refine once_mono (once_andThen (hk n e _) (T := From path (2 * n + 1)) (fun b => ?_) fun _ => from_apart (Nat.lt_succ_self _)) fun _ hq =>
      hq.elim from_at (from_le (Nat.le_succ _))
    exact once_mono (once_andThen (hv n e _) (T := From path (2 * (n + 1))) (fun b => once_unsortedLoop path hk hv es (n + 1) b) fun _ =>
      from_apart (by omega)) fun _ hq => hq.elim from_at (from_le (by omega))

theorem once_sortedLoop (path : Path) (hk : ∀ n e dst, Once (fun q => ((2 * n) :: path) <:+ q) (kf n e dst))
    (hv : ∀ n e dst, Once (fun q => ((2 * n + 1) :: path) <:+ q) (vf n e dst)) : ∀ (es : List α) (n : Nat) (buf : Bytes) (mel : List (Bytes × Bytes)),
    Once (From path (2 * n)) (sortedLoopT kf vf n es buf mel)
  | [], _, _, _ => once_done
  | e :: es, n, buf, mel => by
    refine once_mono (once_bind (hk n e _) (T := From path (2 * n + 1)) (fun a => ?_) fun _ => from_apart (Nat.lt_succ_self _)) fun _ hq =>
      hq.elim from_at (from_le (Nat.le_succ _))
    cases a with
    | ok buf1 =>
      simp only
      split
      · exact once_done
      · refine once_mono (once_bind (hv n e _) (T := From path (2 * (n + 1))) (fun a => ?_) fun _ => from_apart (by omega)) fun _ hq =>
          hq.elim from_at (from_le (by omega))
        cases a with
        | ok buf2 =>
          simp only
          split
          · exact once_done
          · exact once_sortedLoop path hk hv es (n + 1) _ _
        | _ => exact once_done
    | _ => exact once_done

theorem once_entries (path : Path) (hk : ∀ n e dst, Once (fun q => ((2 * n) :: path) <:+ q) (kf n e dst))
    (hv : ∀ n e dst, Once (fun q => ((2 * n + 1) :: path) <:+ q) (vf n e dst)) (es : List α) (dst : Bytes) :
    Once (fun q => path <:+ q) (encodeEntriesT W o kf vf es dst) := by
  refine once_finish (f := fun b => .ok (b ++ b! "}")) ?_
  split
  · exact once_mono (once_unsortedLoop path hk hv es 0 _) fun _ => from_suffix
  · refine once_then (once_mono (once_sortedLoop path hk hv es 0 _ _) fun _ => from_suffix) fun a => ?_
    cases a with
    | ok mel => exact once_done
    | stop r => cases r <;> exact once_done

theorem once_appendJSON (h : OnceRec rec) (path : Path) (v : Eface) (dst : Bytes) : Once (fun q => path <:+ q) (appendJSONT W rec path v dst) := by
  cases v with
  | none => exact once_done
  | some x =>
    simp only [appendJSONT]
    split
    · exact once_done
    · exact h _ _ _ _

theorem once_syncMapKey (h : OnceRec rec) (path : Path) (v : Eface) (dst : Bytes) : Once (fun q => path <:+ q) (appendSyncMapKeyT W m o rec path v dst) := by
  cases v with
  | none => exact once_done
  | some x =>
    simp only [appendSyncMapKeyT]
    split
    · exact once_done
    · split
      · exact once_withRead fun _ => once_done
      · exact once_finish (once_appendJSON h _ _ _)

theorem once_ask {path : Path} {q : Ask} (hq : q.path = path) {k : MethRes → Res} : Once (fun q => path <:+ q) (.ask q fun r => .done (k r)) := by
  intro l a hc
  cases hc with
  | ask hc =>
    cases hc
    subst hq
    refine ⟨fun x hx => ?_, by simp⟩
    rw [List.mem_singleton.mp hx]
    exact List.suffix_refl _

theorem once_callMeth (path : Path) (k : MethKind) (t rt : TId) (w : Loc) (dst : Bytes) : Once (fun q => path <:+ q) (callMethT W o path k t rt w dst) := by
  intro l a hc
  cases k <;> simp only [callMethT] at hc <;>
  · cases hc with
    | ask hc =>
      rename_i r l
      cases r <;> cases hc <;> exact ⟨fun x hx => by rw [List.mem_singleton.mp hx]; exact List.suffix_refl _, by simp⟩

theorem once_invoke (path : Path) (k : MethKind) (t : TId) (hp : Bool) (p : Loc) (dst : Bytes) : Once (fun q => path <:+ q) (invokeMethT W m o path k t hp p dst) := by
  refine once_withRead fun r => ?_
  cases r with
  | none => exact once_done
  | some x => exact once_callMeth _ _ _ _ _ _

theorem once_exec (h : OnceRec rec) : OnceRec (execT W m o rec) := by
  intro path i p dst
  cases i with
  | goType s =>
    cases s with
    | syncMap => exact once_withRead fun es => once_entries path (fun n e dst => once_syncMapKey h _ _ _) (fun n e dst => once_appendJSON h _ _ _) _ _
    | duration => exact once_withRead fun x => by cases x <;> exact once_done
    | _ => exact once_withRead fun _ => once_done
  | marshaler k t hp =>
    simp only [execT, encodeMarshalerT]
    split
    · split
      · refine once_withRead fun b => ?_
        split
        · exact once_done
        · exact once_invoke _ _ _ _ _ _
      · exact once_invoke _ _ _ _ _ _
    · split
      · exact once_done
      · exact once_invoke _ _ _ _ _ _
  | bool | int _ | float _ | string | quotedString | byteSlice => exact once_withRead fun _ => once_done
  | quoted i => exact once_finish (h _ _ _ _)
  | nilText i =>
    refine once_withRead fun a => ?_
    split
    · exact once_done
    · exact h _ _ _ _
  | inline i =>
    cases p with
    | heap w => exact h _ _ _ _
    | tmp w => exact once_done
  | iface =>
    refine once_withRead fun v => ?_
    cases v with
    | none => exact once_done
    | some x => exact once_appendJSON h _ _ _
  | struct t ca =>
    simp only [execT]
    split
    · exact once_done
    · split
      · exact once_done
      · exact once_mono (once_structLoop h path p _ 0 true dst) fun _ => from_suffix
  | map _ ki vi =>
    refine once_withRead fun a => ?_
    split
    · exact once_done
    · refine once_withRead fun es => ?_
      split
      · exact once_done
      · exact once_entries path (fun n e dst => h _ _ _ _) (fun n e dst => h _ _ _ _) _ _
  | slice ins es =>
    refine once_withRead fun x => ?_
    simp only
    split
    · exact once_done
    · split
      · exact once_done
      · exact once_array h _ _ _ _ _ _ _
  | array ins es n isba => exact once_array h _ _ _ _ _ _ _
  | ptr i =>
    refine once_withRead fun a => ?_
    split
    · exact h _ _ _ _
    · exact once_done
  | unsupported t => exact once_done

theorem once_run : ∀ n, OnceRec (runT W m o n)
  | 0 => fun _ _ _ _ => once_done
  | n + 1 => once_exec (once_run n)

theorem once_marshalT (n : Nat) (v : Eface) (opts : List (Option Opt)) : Once (fun _ => True) (marshalT W m n v opts) := by
  cases v with
  | none => exact once_done
  | some x =>
    simp only [marshalT]
    split
    · exact once_done
    · exact once_mono (once_then (once_appendJSON (once_run n) _ _ _) fun _ => once_done) fun _ _ => trivial

theorem once_appendT (n : Nat) (dst : Bytes) (v : Eface) (opts : List (Option Opt)) : Once (fun _ => True) (appendT W m n dst v opts) := by
  cases v with
  | none => exact once_done
  | some x =>
    simp only [appendT]
    split
    · exact once_done
    · exact once_mono (once_then (once_appendJSON (once_run n) _ _ _) fun _ => once_done) fun _ _ => trivial

/-! ## Methods with state -/

/-- The course that a conversation takes with methods that have a state, and the states at the calls. -/
theorem play_course {σ α : Type} (meth : σ → MethKind → Option Ctx → TId → Loc → Bytes → MethRes × σ) : ∀ (c : Talk α) (s : σ),
    ∃ l : List ((Ask × MethRes) × σ), Course c (l.map Prod.fst) (c.play meth s).1 ∧
      ∀ x ∈ l, x.1.2 = (meth x.2 x.1.1.kind x.1.1.ctx x.1.1.typ x.1.1.recv x.1.1.dst).1
  | .done a, s => ⟨[], .done, fun x hx => (nomatch hx)⟩
  | .ask q k, s => by
    obtain ⟨l, h1, h2⟩ := play_course meth (k (meth s q.kind q.ctx q.typ q.recv q.dst).1) (meth s q.kind q.ctx q.typ q.recv q.dst).2
    refine ⟨((q, _), s) :: l, .ask h1, fun x hx => ?_⟩
    rcases List.mem_cons.mp hx with rfl | hx
    · rfl
    · exact h2 x hx

/-- A course is the answer of methods that give its results. -/
theorem course_answer {α : Type} {meth : Path → MethKind → Option Ctx → TId → Loc → Bytes → MethRes} {c : Talk α} {l : List (Ask × MethRes)} {a : α} (h : Course c l a)
    (hm : ∀ x ∈ l, meth x.1.path x.1.kind x.1.ctx x.1.typ x.1.recv x.1.dst = x.2) : c.answer meth = a := by
  induction h with
  | done => rfl
  | @ask q k r l a h ih =>
    have := hm _ List.mem_cons_self
    simp only at this
    rw [Talk.answer, this]
    exact ih fun x hx => hm x (List.mem_cons_of_mem _ hx)

/-- Methods with a state are, for one encoding, methods that know the step. -/
theorem play_answer {σ α : Type} (meth : σ → MethKind → Option Ctx → TId → Loc → Bytes → MethRes × σ) {c : Talk α} {S : Path → Prop} (hc : Once S c) (s : σ) :
    ∃ st : Path → σ, (c.play meth s).1 = c.answer fun path k ctx t w dst => (meth (st path) k ctx t w dst).1 := by
  obtain ⟨l, h1, h2⟩ := play_course meth c s
  have hn := (hc _ _ h1).2
  refine ⟨fun path => ((l.find? fun x => x.1.1.path == path).map Prod.snd).getD s, (course_answer h1 fun x hx => ?_).symm⟩
  obtain ⟨y, hy, rfl⟩ := List.mem_map.mp hx
  rw [h2 y hy]
  have : l.find? (fun x => x.1.1.path == y.1.1.path) = some y := by
    clear h1 h2 hx
    induction l with
    | nil => cases hy
    | cons z l ih =>
      simp only [List.map_cons, List.nodup_cons, List.map_map] at hn
      rcases List.mem_cons.mp hy with rfl | hy
      · simp
      · have hne : ¬ z.1.1.path = y.1.1.path := fun e => hn.1 (e ▸ List.mem_map.mpr ⟨y, hy, rfl⟩)
        rw [List.find?_cons_of_neg (by simpa using hne)]
        exact ih (by simpa using hn.2) hy
  simp only [this]
  rfl

end Jettison.Proofs
