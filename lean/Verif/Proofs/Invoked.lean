import Verif.Spec.Invoked
import Verif.Proofs.Talk
import Verif.Proofs.Visits
import Verif.Proofs.Judged
import Verif.Props.Methods

/-!
# The methods that a conversation calls

`Says W m o js c`: whatever the methods give, the calls of the conversation `c` are those of
encoding the values `js` one after the other.
-/

namespace Jettison.Proofs
open Jettison Jettison.Spec Jettison.Model Jettison.Props

variable {W : World} {H : Heap} {M : MethV} {m : Mem} {o : EncOpts}

/-! ## Courses -/

theorem course_bind {α β : Type} {c : Talk α} {f : α → Talk β} : ∀ {l : List (Ask × MethRes)} {b : β}, Course (c.bind f) l b →
    ∃ a l1 l2, Course c l1 a ∧ Course (f a) l2 b ∧ l = l1 ++ l2 := by
  induction c with
  | done a => exact fun h => ⟨a, [], _, .done, h, rfl⟩
  | ask q k ih =>
    intro l b h
    cases h with
    | ask h =>
      obtain ⟨a, l1, l2, h1, h2, rfl⟩ := ih _ h
      exact ⟨a, _, l2, .ask h1, h2, rfl⟩

/-- Whether an instruction came to its end without error. -/
def Res.fine : Res → Bool
  | .ok _ => true
  | _ => false

theorem course_andThen {c : Talk Res} {f : Bytes → Talk Res} {l : List (Ask × MethRes)} {r : Res} (h : Course (c.andThen f) l r) :
    (∃ b l1 l2, Course c l1 (.ok b) ∧ Course (f b) l2 r ∧ l = l1 ++ l2) ∨ (Course c l r ∧ Res.fine r = false) := by
  obtain ⟨a, l1, l2, h1, h2, rfl⟩ := course_bind h
  cases a with
  | ok b => exact .inl ⟨b, l1, l2, h1, h2, rfl⟩
  | _ => cases h2; rw [List.append_nil]; exact .inr ⟨h1, rfl⟩

/-! ## Calls of values one after the other -/

theorem sameCalls_append {l l' : List (Ask × MethRes)} {e e' : List Invoke} (h : SameCalls W m o l e) (h' : SameCalls W m o l' e') :
    SameCalls W m o (l ++ l') (e ++ e') := by
  induction h with
  | nil => exact h'
  | cons h1 _ ih => exact .cons h1 ih

theorem invokedAll_append {js' : List Job} {fin : Bool} {e' : List Invoke} (h' : InvokedAll W o js' fin e') : ∀ (js : List Job) {e : List Invoke},
    InvokedAll W o js true e → InvokedAll W o (js ++ js') fin (e ++ e')
  | [], _, h => by cases h; exact h'
  | j :: js, _, h => by
    cases h with
    | cons h1 h2 => rw [List.append_assoc]; exact .cons h1 (invokedAll_append h' js h2)

theorem invokedAll_stop {js' : List Job} : ∀ (js : List Job) {e : List Invoke}, InvokedAll W o js false e → InvokedAll W o (js ++ js') false e
  | [], _, h => by cases h; exact .stop
  | j :: js, _, h => by
    cases h with
    | stop => exact .stop
    | last h => exact .last h
    | cons h1 h2 => exact .cons h1 (invokedAll_stop js h2)

theorem invokedAll_one {j : Job} {fin : Bool} {e : List Invoke} (h : Invoked W o j fin e) : InvokedAll W o [j] fin e := by
  cases fin with
  | true => have := InvokedAll.cons h .nil; rwa [List.append_nil] at this
  | false => exact .last h

theorem invokedAll_one_inv {j : Job} {fin : Bool} {e : List Invoke} (h : InvokedAll W o [j] fin e) : Invoked W o j fin e := by
  cases h with
  | stop => exact .stop
  | last h => exact h
  | cons h1 h2 =>
    cases h2 with
    | nil => rwa [List.append_nil]
    | stop =>
      rw [List.append_nil]
      cases h1 with
      | method h _ => exact .method h (by simp)
      | parts a b c => exact .parts a b (by have := invokedAll_append (InvokedAll.stop (js := [])) _ c; rwa [List.append_nil, List.append_nil] at this)

/-- The calls of the conversation are those of encoding the values. -/
def Says (W : World) (m : Mem) (o : EncOpts) (js : List Job) (c : Talk Res) : Prop :=
  ∀ l r, Course c l r → ∃ e, InvokedAll W o js (Res.fine r) e ∧ SameCalls W m o l e

theorem says_done {r : Res} : Says W m o [] (.done r) := by
  intro l r' h
  cases h
  refine ⟨[], ?_, .nil⟩
  cases Res.fine r with
  | true => exact .nil
  | false => exact .stop

theorem says_stop {js : List Job} {r : Res} (h : Res.fine r = false) : Says W m o js (.done r) := by
  intro l r' hc
  cases hc
  rw [h]
  exact ⟨[], .stop, .nil⟩

theorem says_andThen {js js' : List Job} {c : Talk Res} {f : Bytes → Talk Res} (h : Says W m o js c) (h' : ∀ b, Says W m o js' (f b)) :
    Says W m o (js ++ js') (c.andThen f) := by
  intro l r hc
  rcases course_andThen hc with ⟨b, l1, l2, h1, h2, rfl⟩ | ⟨h1, h2⟩
  · obtain ⟨e, a1, a2⟩ := h _ _ h1
    obtain ⟨e', b1, b2⟩ := h' b _ _ h2
    exact ⟨_, invokedAll_append b1 js a1, sameCalls_append a2 b2⟩
  · obtain ⟨e, a1, a2⟩ := h _ _ h1
    rw [h2] at a1 ⊢
    exact ⟨e, invokedAll_stop js a1, a2⟩

theorem says_then {js : List Job} {c : Talk Res} {f : Bytes → Talk Res} (h : Says W m o js c) (h' : ∀ b, Says W m o [] (f b)) :
    Says W m o js (c.andThen f) := by
  have := says_andThen h h'
  rwa [List.append_nil] at this

theorem says_withRead {α : Type} {js : List Job} {x : Option α} {f : α → Talk Res} (h : ∀ a, x = some a → Says W m o js (f a)) :
    Says W m o js (withReadT x f) := by
  cases x with
  | none => exact says_stop rfl
  | some a => exact h a rfl

/-- A value that no method encodes. -/
theorem says_parts {t : TId} {ca : Bool} {v : Val} {js : List Job} {c : Talk Res} (h : ∀ m rt x, ¬ MethodFor W t ca v m rt x) (ha : Asks W o t ca v js)
    (hc : Says W m o js c) : Says W m o [⟨t, ca, v⟩] c := by
  intro l r h1
  obtain ⟨e, a1, a2⟩ := hc _ _ h1
  exact ⟨e, invokedAll_one (.parts h ha a1), a2⟩

theorem noMethod_kind {t : TId} {ca : Bool} {v : Val} (hb : ByKind W.E t ca) (m : MethKind) (rt : TId) (x : Val) : ¬ MethodFor W t ca v m rt x :=
  fun h => picks_byKind h.2.1 hb

theorem noMethod_special {t : TId} {ca : Bool} {v : Val} {s : Special} (hs : (W.E t).special = some s) (m : MethKind) (rt : TId) (x : Val) :
    ¬ MethodFor W t ca v m rt x := fun h => by have := h.1; rw [hs] at this; cases this

/-! ## Loops -/

theorem says_arrayLoop {rec : RecT} {path : Path} {ins : Instr} {es : Nat} {p : Loc} {e : TId} {ca : Bool} {vs : List Val}
    (h : ∀ (k : Nat) x, vs[k]? = some x → ∀ path dst, Says W m o [⟨e, ca, x⟩] (rec path ins (p.add (k * es)) dst)) : ∀ (n i : Nat) (dst : Bytes),
    i + n = vs.length → Says W m o ((vs.drop i).map fun v => ⟨e, ca, v⟩) (arrayLoopT rec path ins es p i n dst)
  | 0, i, dst, hl => by
    rw [List.drop_eq_nil_of_le (by omega)]
    exact says_done
  | n + 1, i, dst, hl => by
    have hi : i < vs.length := by omega
    rw [List.drop_eq_getElem_cons hi]
    exact says_andThen (js := [⟨e, ca, vs[i]⟩]) (h i _ (List.getElem?_eq_getElem hi) _ _) fun b => says_arrayLoop h n (i + 1) b (by omega)

section
open Classical

theorem says_structLoop {rec : RecT} {path : Path} {p : Loc} {v : Val} {ca : Bool} {g : FInstr → MField} {X : MField → Val} :
    ∀ (fs : List FInstr) (i : Nat) (first : Bool) (dst : Bytes),
    (∀ f ∈ fs, (fieldLoc m o f p = some none ∧ LeftOut o v (g f)) ∨
      ∃ fp, fieldLoc m o f p = some (some fp) ∧ ¬ LeftOut o v (g f) ∧ ∀ path dst, Says W m o [⟨(g f).decl.typ, ca, X (g f)⟩] (rec path f.instr fp dst)) →
    Says W m o (((fs.map g).filter fun x => ¬ LeftOut o v x).map fun x => ⟨x.decl.typ, ca, X x⟩) (structLoopT m o rec path p i fs first dst)
  | [], _, _, _, _ => says_done
  | f :: fs, i, first, dst, h => by
    have ih := fun i first dst => says_structLoop (rec := rec) (path := path) fs i first dst fun f hf => h f (List.mem_cons_of_mem _ hf)
    simp only [structLoopT]
    rcases h f List.mem_cons_self with ⟨h1, h2⟩ | ⟨fp, h1, h2, h3⟩
    · rw [h1, List.map_cons, List.filter_cons_of_neg (by simpa using h2)]
      exact ih _ _ _
    · rw [h1, List.map_cons, List.filter_cons_of_pos (by simpa using h2), List.map_cons]
      refine says_andThen (js := [_]) (h3 _ _) fun b => ?_
      split
      · exact ih _ _ _
      · exact ih _ _ _

end

theorem says_unsortedLoop {α β : Type} {kf vf : Nat → α → Bytes → Talk Res} {K V : β → List Job} : ∀ (es : List (α × β)) (n : Nat) (dst : Bytes),
    (∀ e ∈ es, ∀ n dst, Says W m o (K e.2) (kf n e.1 dst)) → (∀ e ∈ es, ∀ n dst, Says W m o (V e.2) (vf n e.1 dst)) →
    Says W m o ((es.map Prod.snd).flatMap fun b => K b ++ V b) (unsortedLoopT kf vf n (es.map Prod.fst) dst)
  | [], _, _, _, _ => says_done
  | e :: es, n, dst, hk, hv => by
    rw [List.map_cons, List.map_cons, List.flatMap_cons, List.append_assoc]
    refine says_andThen (hk e List.mem_cons_self _ _) fun b => says_andThen (hv e List.mem_cons_self _ _) fun b => ?_
    exact says_unsortedLoop es _ _ (fun e he => hk e (List.mem_cons_of_mem _ he)) fun e he => hv e (List.mem_cons_of_mem _ he)

/-- Whether the entries were collected. -/
def Coll.fine : Coll → Bool
  | .ok _ => true
  | .stop _ => false

theorem says_sortedLoop {α β : Type} {kf vf : Nat → α → Bytes → Talk Res} {K V : β → List Job} : ∀ (es : List (α × β)) (n : Nat) (buf : Bytes) (mel : List (Bytes × Bytes)),
    (∀ e ∈ es, ∀ n dst, Says W m o (K e.2) (kf n e.1 dst)) → (∀ e ∈ es, ∀ n dst, Says W m o (V e.2) (vf n e.1 dst)) →
    ∀ l r, Course (sortedLoopT kf vf n (es.map Prod.fst) buf mel) l r → 
      ∃ ev, InvokedAll W o ((es.map Prod.snd).flatMap fun b => K b ++ V b) (Coll.fine r) ev ∧ SameCalls W m o l ev ∧ ∀ b, r ≠ .stop (.ok b)
  | [], _, _, _, _, _, l, r, h => by
    cases h
    exact ⟨[], .nil, .nil, by simp⟩
  | e :: es, n, buf, mel, hk, hv, l, r, h => by
    rw [List.map_cons, List.flatMap_cons, List.append_assoc]
    simp only [List.map_cons, sortedLoopT] at h
    obtain ⟨a, l1, l2, h1, h2, rfl⟩ := course_bind h
    obtain ⟨e1, a1, a2⟩ := hk e List.mem_cons_self _ _ _ _ h1
    cases a with
    | ok buf1 =>
      simp only at h2
      split at h2
      · cases h2
        exact ⟨_, invokedAll_append .stop _ a1, sameCalls_append a2 .nil, by simp⟩
      · obtain ⟨a, l3, l4, h3, h4, rfl⟩ := course_bind h2
        obtain ⟨e2, b1, b2⟩ := hv e List.mem_cons_self _ _ _ _ h3
        cases a with
        | ok buf2 =>
          simp only at h4
          split at h4
          · cases h4
            exact ⟨_, invokedAll_append (invokedAll_append .stop _ b1) _ a1, sameCalls_append a2 (sameCalls_append b2 .nil), by simp⟩
          · obtain ⟨e3, c1, c2, c3⟩ := says_sortedLoop es _ _ _ (fun e he => hk e (List.mem_cons_of_mem _ he)) (fun e he => hv e (List.mem_cons_of_mem _ he)) _ _ h4
            exact ⟨_, invokedAll_append (invokedAll_append c1 _ b1) _ a1, sameCalls_append a2 (sameCalls_append b2 c2), c3⟩
        | _ =>
          cases h4
          exact ⟨_, invokedAll_append (invokedAll_stop _ b1) _ a1, sameCalls_append a2 (by rw [List.append_nil]; exact b2), by simp⟩
    | _ =>
      cases h2
      exact ⟨_, invokedAll_stop _ a1, (by rw [List.append_nil]; exact a2), by simp⟩

theorem says_entries {α β : Type} {kf vf : Nat → α → Bytes → Talk Res} {K V : β → List Job} (es : List (α × β)) (dst : Bytes)
    (hk : ∀ e ∈ es, ∀ n dst, Says W m o (K e.2) (kf n e.1 dst)) (hv : ∀ e ∈ es, ∀ n dst, Says W m o (V e.2) (vf n e.1 dst)) :
    Says W m o ((es.map Prod.snd).flatMap fun b => K b ++ V b) (encodeEntriesT W o kf vf (es.map Prod.fst) dst) := by
  refine says_then ?_ fun b => says_done
  split
  · exact says_unsortedLoop es _ _ hk hv
  · intro l r h
    obtain ⟨a, l1, l2, h1, h2, rfl⟩ := course_bind h
    obtain ⟨e, a1, a2, a3⟩ := says_sortedLoop es _ _ _ hk hv _ _ h1
    have : Course (.done r) l2 r ∧ Res.fine r = Coll.fine a := by
      cases a with
      | ok mel => cases h2; exact ⟨.done, rfl⟩
      | stop x =>
        cases x with
        | ok b => exact absurd rfl (a3 b)
        | _ => cases h2; exact ⟨.done, rfl⟩
    obtain ⟨h3, h4⟩ := this
    cases h3
    rw [h4, List.append_nil]
    exact ⟨e, a1, a2⟩

/-! ## Values -/

theorem says_basic {k : Kind} {q : Bool} {i : Instr} (h : newBasicTypeInstr k q = some i) (n : Nat) (path : Path) (p : Loc) (dst : Bytes) :
    Says W m o [] (runT W m o n path i p dst) := by
  have leaf : ∀ {n path i p dst}, (i = .bool ∨ (∃ k, i = .int k) ∨ (∃ w, i = .float w) ∨ i = .string ∨ i = .quotedString) → Says W m o [] (runT W m o n path i p dst) := by
    intro n path i p dst h
    cases n with
    | zero => exact says_stop rfl
    | succ n => rcases h with rfl | ⟨k, rfl⟩ | ⟨w, rfl⟩ | rfl | rfl <;> exact says_withRead fun a _ => says_done
  have quoted : ∀ {i}, (i = .bool ∨ (∃ k, i = .int k) ∨ (∃ w, i = .float w) ∨ i = .string ∨ i = .quotedString) → Says W m o [] (runT W m o n path (.quoted i) p dst) := by
    intro i h
    cases n with
    | zero => exact says_stop rfl
    | succ n => exact says_then (leaf h) fun b => says_done
  cases q <;> cases k <;> first
    | (simp only [newBasicTypeInstr, if_true, Bool.false_eq_true, if_false, Option.some.injEq] at h; subst h; first | (refine quoted ?_; simp; done) | (refine leaf ?_; simp; done))
    | simp [newBasicTypeInstr] at h

theorem basic_leaf {t : TId} {ca : Bool} {v : Val} (hb : ByKind W.E t ca) (hk : isBasicK (W.E t).kind = true) : ∀ t' ca' v', ¬ Encodes1 W o t ca v t' ca' v' := by
  intro t' ca' v' h
  have hs := hb.special
  cases h with
  | ptr _ h | slice _ h | array _ h | key _ h | elem _ h | iface _ h => rw [h] at hk; cases hk
  | skey h | selem h => rw [hs] at h; cases h
  | field _ h => obtain ⟨fs, e⟩ := h; simp only [HasFields] at e; rw [e] at hk; cases hk

theorem special_leaf {t : TId} {ca : Bool} {v : Val} {s : Special} (hs : (W.E t).special = some s) (hn : s ≠ .syncMap) :
    ∀ t' ca' v', ¬ Encodes1 W o t ca v t' ca' v' := by
  intro t' ca' v' h
  cases h with
  | ptr hb | slice hb | array hb | key hb | elem hb | iface hb | field hb => have := hb.special; rw [hs] at this; cases this
  | skey h | selem h => rw [hs] at h; cases h; exact hn rfl

theorem methods_leaf {t : TId} {ca : Bool} {v : Val} {m : MethKind} (hs : (W.E t).special = none) (hp : Picks W.E t ca m) :
    ∀ t' ca' v', ¬ Encodes1 W o t ca v t' ca' v' := by
  intro t' ca' v' h
  cases h with
  | ptr hb | slice hb | array hb | key hb | elem hb | iface hb | field hb => exact picks_byKind hp hb
  | skey h | selem h => rw [hs] at h; cases h

theorem nil_leaf' {t : TId} {ca : Bool} (hn : ¬ IsStruct W.E t) :
    ∀ t' ca' v', ¬ Encodes1 W o t ca .nil t' ca' v' := by
  intro t' ca' v' h
  cases h with
  | field _ h => exact hn h

theorem notStruct {t : TId} (h : ∀ fs, (W.E t).kind ≠ .struct fs) : ¬ IsStruct W.E t := by
  rintro ⟨fs, e⟩
  exact h fs e

/-- Running the instruction of a value makes the calls of that value, up to the nesting depth `n`. -/
def SaysUpto (W : World) (H : Heap) (o : EncOpts) (n : Nat) : Prop :=
  ∀ (t : TId) (ca q : Bool) (i : Instr) (p : Loc) (v : Val), Stands W H t ca q i p v → ∀ path dst, Says W H.mem o [⟨t, ca, v⟩] (runT W H.mem o n path i p dst)

theorem says_held (R : Ready W H M) {n : Nat} (ih : ∀ k, k ≤ n → SaysUpto W H o k) {t : TId} {w : Addr} {v : Val}
    (hx : ReprE W.E H.mem (some (t, w)) (.iface t v)) (path : Path) (dst : Bytes) :
    Says W H.mem o [⟨t, isPtrK (W.E t).kind, v⟩] (appendJSONT W (runT W H.mem o n) path (some (t, w)) dst) := by
  simp only [appendJSONT]
  cases hi : instrFor W.E W.tfuel t with
  | none => exact says_stop rfl
  | some j =>
    obtain ⟨p, hp⟩ := held_exists W.E t w
    obtain ⟨i, hm, hcase⟩ := instrFor_held R hp hi
    have ht : p.t = t ∧ p.ca = isPtrK (W.E t).kind := by cases hp <;> exact ⟨rfl, rfl⟩
    rw [ht.1, ht.2] at hm
    have hS : Stands W H t (isPtrK (W.E t).kind) false i p.l v := by
      refine ⟨⟨_, hm⟩, ?_, fun h => .inl h⟩
      cases hp with
      | direct hd =>
        cases hx with
        | direct _ h => exact h
        | indirect h => exact absurd hd (pointed_not_inlined h)
      | indirect hd =>
        cases hx with
        | direct h => exact absurd h hd
        | indirect _ h => exact h
    rcases hcase with ⟨rfl, hl⟩ | ⟨rfl, hl⟩
    · rw [hl] at hS
      cases n with
      | zero => exact says_stop rfl
      | succ n => exact ih n (by omega) _ _ _ _ _ _ hS path dst
    · rw [hl] at hS
      exact ih n (Nat.le_refl n) _ _ _ _ _ _ hS path dst

theorem says_call {t : TId} {ca : Bool} {v : Val} {k : MethKind} {rt u : TId} {x : Val} {w : Loc} (hm : MethodFor W t ca v k rt x) (hr : Recv W.E m rt w x)
    (path : Path) (dst : Bytes) : Says W m o [⟨t, ca, v⟩] (callMethT W o path k u rt w dst) := by
  have key : ∀ {q : Ask} {f : MethRes → Talk Res}, q.kind = k → q.ctx = argCtx o k → q.typ = rt → q.recv = w → (k = .json ∨ k = .text → q.dst = []) →
      (∀ x l r, Course (f x) l r → l = [] ∧ (Res.fine r = true → ∃ b, x = .ok b)) → Says W m o [⟨t, ca, v⟩] (.ask q f) := by
    intro q f h1 h2 h3 h4 h5 h l r hc
    cases hc with
    | @ask _ _ y _ _ hc =>
      obtain ⟨rfl, hb⟩ := h _ _ _ hc
      exact ⟨[⟨k, rt, x, y⟩], invokedAll_one (.method hm hb), .cons ⟨h1, h2, h3, h4 ▸ hr, rfl, h5⟩ .nil⟩
  cases k
  all_goals
    refine key rfl rfl rfl rfl (by simp) fun y l r hc => ?_
    cases y with
    | ok b => cases hc; exact ⟨rfl, fun _ => ⟨b, rfl⟩⟩
    | err e => cases hc; exact ⟨rfl, fun h => nomatch h⟩
    | panic => cases hc; exact ⟨rfl, fun h => nomatch h⟩

theorem says_meth (R : Ready W H M) {t : TId} {ca q : Bool} {i : Instr} {p : Loc} {v : Val} {n : Nat} (S : Stands W H t ca q i p v)
    (hs : (W.E t).special = none) {k : MethKind} (hp : Picks W.E t ca k) (path : Path) (dst : Bytes) :
    Says W H.mem o [⟨t, ca, v⟩] (runT W H.mem o (n + 1) path i p dst) := by
  obtain ⟨f, hm⟩ := S.made
  have hi := picks_made hs hp hm
  subst hi
  have hnil : v = .nil → MethSet.Has (W.E t).meths k → IsPtr W.E t ∨ IsIface W.E t → ∀ r, Says W H.mem o [⟨t, ca, v⟩] (.done r) := by
    rintro rfl hh hpi r
    refine says_parts (fun m rt x h => ?_) (.leaf (methods_leaf hs hp)) says_done
    obtain ⟨-, h1, u, h2⟩ := h
    have := picks_unique hp h1
    subst this
    exact receives_nil hh hpi h2
  simp only [runT, execT, encodeMarshalerT]
  cases hh : hasB (W.E t).meths k with
  | true =>
    have hh' := (hasB_iff _ _).mpr hh
    simp only [Bool.not_true, Bool.not_false, if_true]
    by_cases hif : IsIface W.E t
    · obtain ⟨c, hk⟩ := hif
      obtain ⟨x, hat, hx⟩ := repr_iface R.types hk S.holds
      have hfn : firstWordNil H.mem p = some x.isNone := by
        rcases hat with ⟨_, h⟩ | ⟨_, h⟩ <;> simp [firstWordNil, h]
      have hrd : (if c = 0 then readEface H.mem p else readIface H.mem p) = some x := by
        rcases hat with ⟨h0, h⟩ | ⟨h0, h⟩ <;> simp [readEface, readIface, h, h0]
      simp only [hk, isPtrK, ifaceK, Option.isSome_some, Bool.or_true, if_true, withReadT, hfn, invokeMethT, receiver, hrd]
      cases hx with
      | nil => exact hnil rfl hh' (.inr ⟨c, hk⟩) _
      | direct hd hr => exact says_call ⟨hs, hp, _, .dyn hh' ⟨c, hk⟩⟩ (reprE_recv R.types (.direct hd hr)) _ _
      | indirect hd hr => exact says_call ⟨hs, hp, _, .dyn hh' ⟨c, hk⟩⟩ (reprE_recv R.types (.indirect hd hr)) _ _
    · by_cases hpt : IsPtr W.E t
      · obtain ⟨e, hk⟩ := hpt
        rcases repr_ptr R.types hk S.holds with ⟨rfl, hat⟩ | ⟨a, x, rfl, hat, ha, hx⟩
        · simp only [hk, isPtrK, Bool.true_or, if_true, withReadT, firstWordNil, hat, beq_self_eq_true]
          exact hnil rfl hh' (.inl ⟨e, hk⟩) _
        · simp only [hk, isPtrK, Bool.true_or, if_true, withReadT, firstWordNil, hat, beq_iff_eq, ha, if_false, invokeMethT, receiver, ifaceK, readWord,
            Bool.not_false, Bool.and_self, Option.map_some]
          exact says_call ⟨hs, hp, _, .own hh' hif (by simp)⟩ (.direct (.ptr hk) (.ptr hk (by simp [Mem.at]) ha hx)) _ _
      · have h1 : isPtrK (W.E t).kind = false := by
          cases h : isPtrK (W.E t).kind with
          | false => rfl
          | true => exact absurd ((isPtr_iff _ _).mpr h) hpt
        have h2 := ifaceK_none hif
        simp only [h1, h2, Option.isSome_none, Bool.or_self, Bool.false_eq_true, if_false, invokeMethT, receiver, Bool.false_and, withReadT]
        refine says_call ⟨hs, hp, _, .own hh' hif fun h => absurd h hpt⟩ ?_ _ _
        have hnd : ¬ Direct W.E t := repr_bare h1 hs S.holds (has_any hh')
        exact .indirect hnd S.holds
  | false =>
    have hh' : ¬ MethSet.Has (W.E t).meths k := fun h => by rw [(hasB_iff _ _).mp h] at hh; cases hh
    rcases hp.1 with h | ⟨hca, hnp, hpm⟩
    · exact absurd h hh'
    · rcases S.addr hca with h | ⟨a, ha, rfl⟩
      · exact absurd ((isPtr_iff _ _).mpr h) hnp
      · have hpk := R.types.ptrTo_kind t
        have hne : Loc.heap a ≠ .heap 0 := by simpa using ha
        simp only [Bool.not_false, Bool.not_true, Bool.false_eq_true, if_false, hne, invokeMethT, receiver, hpk, ifaceK, isPtrK, Bool.and_false, withReadT]
        exact says_call ⟨hs, hp, _, .addr hh' hpm⟩ (.direct (.ptr hpk) (.ptr hpk (by simp [Mem.at]) ha S.holds)) _ _

/-! ### Keys -/

section
open Classical

/-- `KeyJobs` as a function. -/
noncomputable def keyJobs (W : World) (k : TId) (x : Val) : List Job :=
  if (W.E k).kind = .string then [] else if (W.E k).meths.text = true ∧ IsPtr W.E k ∧ x = .nil then [] else [⟨k, false, x⟩]

theorem keyJobs_spec (k : TId) (x : Val) : KeyJobs W k x (keyJobs W k x) := by
  unfold keyJobs
  split
  · next h => exact .string h
  · next h =>
    split
    · next h' => obtain ⟨h1, h2, rfl⟩ := h'; exact .nil h h1 h2
    · next h' => exact .key h fun h1 h2 h3 => h' ⟨h1, h2, h3⟩

/-- `SyncKeyJobs` as a function. -/
noncomputable def syncKeyJobs (W : World) (x : Val) : List Job :=
  match x with
  | .iface d v => if (W.E d).kind = .string then [] else if KeyType W.E d then [⟨d, isPtrK (W.E d).kind, v⟩] else []
  | _ => []

theorem syncKeyJobs_spec {e : Eface} {x : Val} (h : ReprE W.E H.mem e x) : SyncKeyJobs W x (syncKeyJobs W x) := by
  have key : ∀ d v, SyncKeyJobs W (.iface d v) (syncKeyJobs W (.iface d v)) := by
    intro d v
    simp only [syncKeyJobs]
    split
    · next h => exact .string h
    · next h =>
      split
      · next h' => exact .key h' h
      · next h' => exact .bad h'
  cases h with
  | nil => exact .nil
  | direct => exact key _ _
  | indirect => exact key _ _

/-- `SyncElemJobs` as a function. -/
def syncElemJobs (W : World) (x : Val) : List Job :=
  match x with
  | .iface d v => [⟨d, isPtrK (W.E d).kind, v⟩]
  | _ => []

theorem syncElemJobs_spec {e : Eface} {x : Val} (h : ReprE W.E H.mem e x) : SyncElemJobs W x (syncElemJobs W x) := by
  cases h with
  | nil => exact .nil
  | direct => exact .elem
  | indirect => exact .elem

theorem says_key (G : GoTypes W.E W.ptrTo) {n : Nat} (ih : ∀ j, j ≤ n → SaysUpto W H o j) {k : TId} {f : Nat} {ki : Instr}
    (hki : (if isStringK (W.E k).kind = true then some Instr.string else newInstruction W.E f k false false) = some ki) {a : Addr} {x : Val}
    (hx : Repr W.E H.mem k (.heap a) x) (path : Path) (dst : Bytes) :
    Says W H.mem o (keyJobs W k x) (runT W H.mem o n path (wrapKey W.E k ki) (.heap a) dst) := by
  unfold keyJobs
  by_cases hstr : (W.E k).kind = .string
  · rw [if_pos hstr]
    have h1 : isStringK (W.E k).kind = true := by rw [hstr]; rfl
    rw [if_pos h1] at hki
    cases hki
    simp only [wrapKey, hstr, isStringK, isPtrK, Bool.not_true, Bool.false_and, Bool.and_false, Bool.false_eq_true, if_false]
    exact says_basic (k := .string) (q := false) rfl n path _ dst
  · rw [if_neg hstr]
    have h1 : isStringK (W.E k).kind = false := by
      revert hstr
      cases (W.E k).kind <;> simp [isStringK]
    rw [h1, if_neg (by simp)] at hki
    have quoted : ∀ j, j ≤ n → ∀ dst, Says W H.mem o [⟨k, false, x⟩] (runT W H.mem o j path
        (if (!isStringK (W.E k).kind && !(W.E k).meths.text) = true then .quoted ki else ki) (.heap a) dst) := by
      intro j hj dst
      have S : Stands W H k false false ki (.heap a) x := ⟨⟨_, hki⟩, hx, fun h => nomatch h⟩
      split
      · cases j with
        | zero => exact says_stop rfl
        | succ j => exact says_then (ih j (by omega) _ _ _ _ _ _ S _ _) fun b => says_done
      · exact ih j hj _ _ _ _ _ _ S _ _
    simp only [wrapKey]
    by_cases ht : ((W.E k).meths.text && isPtrK (W.E k).kind) = true
    · rw [if_pos ht]
      rw [Bool.and_eq_true] at ht
      obtain ⟨e, hk⟩ := (isPtr_iff _ _).mpr ht.2
      cases n with
      | zero => exact says_stop rfl
      | succ n =>
        simp only [runT, execT]
        rcases repr_ptr G hk hx with ⟨rfl, hat⟩ | ⟨b, y, rfl, hat, hb, hy⟩
        · rw [if_pos ⟨ht.1, ⟨e, hk⟩, rfl⟩]
          simp only [readWord, hat, withReadT, if_true]
          exact says_done
        · rw [if_neg (by simp)]
          simp only [readWord, hat, withReadT, hb, if_false]
          exact quoted n (by omega) dst
    · rw [if_neg ht, if_neg]
      · exact quoted n (Nat.le_refl n) dst
      · rintro ⟨h2, h3, -⟩
        rw [Bool.and_eq_true] at ht
        exact ht ⟨h2, (isPtr_iff _ _).mp h3⟩

theorem says_syncKey (R : Ready W H M) {n : Nat} (ih : ∀ j, j ≤ n → SaysUpto W H o j) {e : Eface} {x : Val} (hx : ReprE W.E H.mem e x) (path : Path) (dst : Bytes) :
    Says W H.mem o (syncKeyJobs W x) (appendSyncMapKeyT W H.mem o (runT W H.mem o n) path e dst) := by
  have key : ∀ d w v, ReprE W.E H.mem (some (d, w)) (.iface d v) →
      Says W H.mem o (syncKeyJobs W (.iface d v)) (appendSyncMapKeyT W H.mem o (runT W H.mem o n) path (some (d, w)) dst) := by
    intro d w v hx
    simp only [appendSyncMapKeyT]
    split
    · exact says_stop rfl
    · next h0 =>
      have hkt : KeyType W.E d := (mapKeyOk_iff _ _).mp (by simp only [mapKeyOk]; revert h0; cases isStringK (W.E d).kind <;> cases isInteger (W.E d).kind <;> cases (W.E d).meths.text <;> simp)
      split
      · next h =>
        have : (W.E d).kind = .string := by
          revert h
          cases (W.E d).kind <;> simp [isStringK]
        rw [syncKeyJobs, if_pos this]
        exact says_withRead fun a _ => says_done
      · next h =>
        have : ¬ (W.E d).kind = .string := fun h' => by rw [h'] at h; exact h rfl
        rw [syncKeyJobs, if_neg this, if_pos hkt]
        exact says_then (says_held R ih hx _ _) fun b => says_done
  cases hx with
  | nil => exact says_stop rfl
  | direct h1 h2 => exact key _ _ _ (.direct h1 h2)
  | indirect h1 h3 => exact key _ _ _ (.indirect h1 h3)

theorem says_syncElem (R : Ready W H M) {n : Nat} (ih : ∀ j, j ≤ n → SaysUpto W H o j) {e : Eface} {x : Val} (hx : ReprE W.E H.mem e x) (path : Path) (dst : Bytes) :
    Says W H.mem o (syncElemJobs W x) (appendJSONT W (runT W H.mem o n) path e dst) := by
  cases hx with
  | nil => exact says_stop rfl
  | direct h1 h2 => exact says_held R ih (.direct h1 h2) _ _
  | indirect h1 h3 => exact says_held R ih (.indirect h1 h3) _ _

/-- Entries in memory and entries of the value. -/
theorem zip_entries {α β : Type} {W : World} {path : Path} {es : List α} {kvs : List β} (hl : es.length = kvs.length) :
    W.visit path es = (W.visit path (es.zip kvs)).map Prod.fst ∧ W.visit path kvs = (W.visit path (es.zip kvs)).map Prod.snd ∧
    ∀ z ∈ W.visit path (es.zip kvs), ∃ i : Nat, es[i]? = some z.1 ∧ kvs[i]? = some z.2 := by
  have h1 : es = (es.zip kvs).map Prod.fst := by rw [List.map_fst_zip (by omega)]
  have h2 : kvs = (es.zip kvs).map Prod.snd := by rw [List.map_snd_zip (by omega)]
  refine ⟨by rw [← visit_map, ← h1], by rw [← visit_map, ← h2], fun z hz => ?_⟩
  obtain ⟨i, hi⟩ := List.getElem?_of_mem (visit_mem hz)
  exact ⟨i, List.getElem?_zip_eq_some.mp hi⟩

theorem says_struct (R : Ready W H M) {n : Nat} (ih : SaysUpto W H o n) {t : TId} {ca q : Bool} {i : Instr} {p : Loc} {v : Val} (S : Stands W H t ca q i p v)
    (hb : ByKind W.E t ca) (hst : IsStruct W.E t) (path : Path) (dst : Bytes) : Says W H.mem o [⟨t, ca, v⟩] (runT W H.mem o (n + 1) path i p dst) := by
  obtain ⟨k, hm⟩ := S.made
  obtain ⟨fs, hfs⟩ := hst
  have := byKind_struct hb hfs hm
  subst this
  simp only [runT, execT]
  split
  · next h0 =>
    rw [show (W.E t).kind = .struct fs from hfs] at h0
    have : fs = [] := List.length_eq_zero_iff.mp h0
    subst this
    refine says_parts (noMethod_kind hb) (.leaf ?_) says_done
    intro t' ca' v' h
    cases h with
    | ptr _ h | slice _ h | array _ h | key _ h | elem _ h | iface _ h => rw [hfs] at h; cases h
    | skey h | selem h => rw [hb.special] at h; cases h
    | field _ _ hc =>
      have := ((membersOf_empty (letter := W.U.isLetter) (digit := W.U.isDigit) hfs).2 _).mpr hc
      cases this
  · cases hflds : structFieldsInstr W.E W.U W.grow W.sort W.tfuel t ca with
    | none => exact says_stop rfl
    | some flds =>
      obtain ⟨fl, hsf, hmap, hok⟩ := structFieldsInstr_ok hflds
      obtain ⟨hfld, hnew⟩ := mapM_fld hmap
      obtain ⟨g, hmem, hbeh⟩ := members_of R.tab R.sort (R.apart t) hsf
      have hroute := structFields_route R.tab (R.apart t) R.sort hsf
      have hX : ∀ y : MField, ∃ x, (∃ x, FieldAt v y.path x) → FieldAt v y.path x := fun y => by
        by_cases h : ∃ x, FieldAt v y.path x
        · obtain ⟨x, hx⟩ := h; exact ⟨x, fun _ => hx⟩
        · exact ⟨.nil, fun h' => absurd h' h⟩
      obtain ⟨X, hX⟩ := Classical.skolem.mp hX
      have hspec : ∀ f ∈ flds, (fieldLoc H.mem o f p = some none ∧ LeftOut o v (g f.fld)) ∨ ∃ fp, fieldLoc H.mem o f p = some (some fp) ∧ ¬ LeftOut o v (g f.fld) ∧
          FieldAt v (g f.fld).path (X (g f.fld)) ∧ ∀ path dst, Says W H.mem o [⟨(g f.fld).decl.typ, ca, X (g f.fld)⟩] (runT W H.mem o n path f.instr fp dst) := by
        intro f hf
        have hfl : f.fld ∈ fl := by rw [← hfld]; exact List.mem_map_of_mem hf
        obtain ⟨hb', u, i, hpr⟩ := hbeh f.fld hfl
        obtain ⟨ftyp', g1, g2, g3, g4, g5, g6⟩ := newFieldInstr_inv (hnew f hf)
        have hty : (g f.fld).decl.typ = ftyp' := by have := promoted_type ⟨fs, hfs⟩ hpr; rw [g1] at this; simpa using this.symm
        rcases fieldLoc_spec (o := o) R S.holds ⟨fs, hfs⟩ hb' (hnew f hf) (hroute _ hfl) hpr with h | ⟨l', x, e1, e2, e3, e4, e5⟩
        · exact .inl h
        · have hx : x = X (g f.fld) := by
            have := hX (g f.fld) ⟨x, e3⟩
            have h1 := fieldAt_iff.mp this
            rw [fieldAt_iff.mp e3] at h1
            exact Option.some.inj (Option.some.inj h1)
          rw [← hx]
          refine .inr ⟨l', e1, e2, e3, fun path dst => ih _ _ _ _ _ _ ⟨⟨_, hty ▸ g6⟩, e4, fun hca => .inr (e5 ?_)⟩ path dst⟩
          rcases S.addr hca with h | h
          · rw [hfs] at h; cases h
          · exact h
      have hfl' : fl.map g = flds.map (fun f => g f.fld) := by rw [← hfld, List.map_map]; rfl
      refine says_parts (noMethod_kind hb) (.struct (l := fl.map g) (kept := (fl.map g).filter fun x => ¬ LeftOut o v x) (x := X) hb ⟨fs, hfs⟩ hmem
        List.filter_sublist ?_ ?_) ?_
      · intro y hy
        simp [hy]
      · intro y hy
        obtain ⟨h1, h2⟩ := List.mem_filter.mp hy
        rw [hfl'] at h1
        obtain ⟨f, hf, rfl⟩ := List.mem_map.mp h1
        rcases hspec f hf with ⟨_, h⟩ | ⟨_, _, _, h, _⟩
        · simp [h] at h2
        · exact h
      · rw [hfl']
        refine says_structLoop flds 0 true dst fun f hf => ?_
        rcases hspec f hf with h | ⟨fp, h1, h2, -, h3⟩
        · exact .inl h
        · exact .inr ⟨fp, h1, h2, h3⟩

theorem says_special (R : Ready W H M) (ho : OrderOk W.order) {n : Nat} (ih : ∀ j, j ≤ n → SaysUpto W H o j) {t : TId} {ca q : Bool} {i : Instr} {p : Loc} {v : Val}
    (S : Stands W H t ca q i p v) {s : Special} (hs : (W.E t).special = some s) (path : Path) (dst : Bytes) :
    Says W H.mem o [⟨t, ca, v⟩] (runT W H.mem o (n + 1) path i p dst) := by
  obtain ⟨k, hm⟩ := S.made
  have := newInstruction_special hs hm
  subst this
  by_cases hn : s = .syncMap
  · subst hn
    obtain ⟨es, kvs, rfl, hat, hl, hk, hv⟩ := repr_smap R.types hs S.holds
    simp only [runT, execT, encodeSpecialT, encodeSyncMapT, readSyncMap, hat, withReadT]
    obtain ⟨z1, z2, z3⟩ := zip_entries (W := W) (path := path) hl
    have hkv : ∀ kv ∈ kvs, ∃ x : Eface × Eface, ReprE W.E H.mem x.1 kv.1 ∧ ReprE W.E H.mem x.2 kv.2 := by
      intro kv hkv
      obtain ⟨j, hj⟩ := List.mem_iff_getElem?.mp hkv
      have hlt : j < es.length := by rw [hl]; exact (List.getElem?_eq_some_iff.mp hj).1
      exact ⟨es[j], hk j _ _ (List.getElem?_eq_getElem hlt) hj, hv j _ _ (List.getElem?_eq_getElem hlt) hj⟩
    refine says_parts (noMethod_special hs) (.smap (f := syncKeyJobs W) (g := syncElemJobs W) hs (visit_perm ho path kvs) ?_ ?_) ?_
    · intro kv h
      obtain ⟨x, h1, -⟩ := hkv kv h
      exact syncKeyJobs_spec h1
    · intro kv h
      obtain ⟨x, -, h1⟩ := hkv kv h
      exact syncElemJobs_spec h1
    · rw [z1, z2]
      refine says_entries (β := Val × Val) (K := fun kv => syncKeyJobs W kv.1) (V := fun kv => syncElemJobs W kv.2) _ _ (fun z hz m dst => ?_) (fun z hz m dst => ?_)
      · obtain ⟨j, h1, h2⟩ := z3 z hz
        exact says_syncKey R ih (hk j _ _ h1 h2) _ _
      · obtain ⟨j, h1, h2⟩ := z3 z hz
        exact says_syncElem R ih (hv j _ _ h1 h2) _ _
  · refine says_parts (noMethod_special hs) (.leaf (special_leaf hs hn)) ?_
    cases s with
    | syncMap => exact absurd rfl hn
    | duration =>
      refine says_withRead fun x _ => ?_
      cases x <;> exact says_done
    | _ => exact says_withRead fun x _ => says_done

theorem says_upto (R : Ready W H M) (ho : OrderOk W.order) (n : Nat) : SaysUpto W H o n := by
  induction n using Nat.strongRecOn with
  | ind n ih =>
    intro t ca q i p v S path dst
    cases n with
    | zero => exact says_stop rfl
    | succ n =>
      have ih' : ∀ m, m ≤ n → SaysUpto W H o m := fun m hm => ih m (by omega)
      cases hs : (W.E t).special with
      | some s => exact says_special R ho ih' S hs _ _
      | none =>
        rcases picks_or_byKind (ca := ca) hs with hb | ⟨m, hp⟩
        · obtain ⟨k, hm⟩ := S.made
          cases hk : (W.E t).kind with
          | ptr e =>
            obtain ⟨k', j, hj, rfl⟩ := byKind_ptr hb hk hm
            rcases repr_ptr R.types hk S.holds with ⟨rfl, hat⟩ | ⟨a, x, rfl, hat, ha, hx⟩
            · simp only [runT, execT, readWord, hat, withReadT]
              exact says_parts (noMethod_kind hb) (.leaf (nil_leaf' (notStruct (by rw [hk]; simp)))) says_done
            · simp only [runT, execT, readWord, hat, withReadT, ne_eq, ha, not_false_eq_true, if_true]
              exact says_parts (noMethod_kind hb) (.ptr hb hk) (ih' n (Nat.le_refl n) _ _ _ _ _ _ ⟨⟨k', hj⟩, hx, fun _ => .inr ⟨a, ha, rfl⟩⟩ _ _)
          | bool | int _ | float _ | string =>
            have hbk : isBasicK (W.E t).kind = true := by rw [hk]; rfl
            exact says_parts (noMethod_kind hb) (.leaf (basic_leaf hb hbk)) (says_basic (byKind_basic hb hbk hm) _ _ _ _)
          | iface c =>
            have hi := byKind_iface hb hk hm
            subst hi
            obtain ⟨x, hat, -, hx⟩ := repr_eface R.types hk hb.meths S.holds
            · simp only [runT, execT, hat, withReadT]
              cases hx with
              | nil => exact says_parts (noMethod_kind hb) (.leaf (nil_leaf' (notStruct (by rw [hk]; simp)))) says_done
              | direct h1 h2 => exact says_parts (noMethod_kind hb) (.iface hb hk) (says_held R ih' (.direct h1 h2) _ _)
              | indirect h1 h3 => exact says_parts (noMethod_kind hb) (.iface hb hk) (says_held R ih' (.indirect h1 h3) _ _)
          | struct fs => exact says_struct R (ih' n (Nat.le_refl n)) S hb ⟨_, hk⟩ _ _
          | other =>
            have hi := byKind_other hb hk hm
            subst hi
            exact says_stop rfl
          | slice e =>
            by_cases he : ByteElem W.E e
            · have hi := byKind_byteSlice hb hk ((isByteElem_iff _ _).mpr he) hm
              subst hi
              refine says_parts (noMethod_kind hb) (.leaf ?_) (says_withRead fun x _ => says_done)
              intro t' ca' v' h
              cases h with
              | slice _ h1 h2 => rw [hk] at h1; cases h1; exact h2 he
              | ptr _ h | array _ h | key _ h | elem _ h | iface _ h => rw [hk] at h; cases h
              | skey h | selem h => rw [hs] at h; cases h
              | field _ h => obtain ⟨fs, e⟩ := h; simp only [HasFields] at e; rw [hk] at e; cases e
            · obtain ⟨k', j, hj, rfl⟩ := byKind_slice hb hk (by rw [← isByteElem_iff] at he; simpa using he) hm
              rcases repr_slice R.types hk S.holds with ⟨rfl, hat⟩ | ⟨d, vs, rfl, hat, hd, hvs⟩
              · simp only [runT, execT, readSlice, hat, withReadT, if_true]
                exact says_parts (noMethod_kind hb) (.leaf (nil_leaf' (notStruct (by rw [hk]; simp)))) says_done
              · simp only [runT, execT, readSlice, hat, withReadT, hd, if_false]
                refine says_parts (noMethod_kind hb) (.slice hb hk he) ?_
                split
                · next h0 =>
                  rw [List.length_eq_zero_iff.mp h0]
                  exact says_done
                · simp only [encodeArrayT, Bool.false_and, Bool.false_eq_true, if_false]
                  exact says_arrayLoop (fun j' x hx path dst => ih' n (Nat.le_refl n) _ _ _ _ _ _
                    ⟨⟨k', hj⟩, hvs j' x hx, fun _ => .inr ⟨_, fun h => hd (Nat.add_eq_zero_iff.mp h).1, rfl⟩⟩ path dst) vs.length 0 dst (by omega)
          | array c e =>
            obtain ⟨k', j, hj, rfl⟩ := byKind_array hb hk hm
            obtain ⟨vs, rfl, hlen, hvs⟩ := repr_array R.types hk S.holds
            simp only [runT, execT, encodeArrayT]
            split
            · next hc =>
              rw [Bool.and_eq_true, isByteElem_iff] at hc
              refine says_parts (noMethod_kind hb) (.leaf ?_) (says_withRead fun x _ => says_done)
              intro t' ca' v' h
              cases h with
              | array _ h1 h2 => rw [hk] at h1; cases h1; exact h2 hc
              | field _ h => obtain ⟨fs, e⟩ := h; simp only [HasFields] at e; rw [hk] at e; cases e
            · next hc =>
              refine says_parts (noMethod_kind hb) (.array hb hk fun h => hc (by rw [Bool.and_eq_true, isByteElem_iff]; exact h)) ?_
              refine says_arrayLoop (fun j' x hx path dst => ih' n (Nat.le_refl n) _ _ _ _ _ _ ⟨⟨k', hj⟩, hvs j' x hx, fun hc => ?_⟩ path dst) c 0 dst (by omega)
              rcases S.addr hc with h | ⟨a, ha, rfl⟩
              · rw [hk] at h; cases h
              · exact .inr ⟨a + j' * (W.E e).size, fun h => ha (Nat.add_eq_zero_iff.mp h).1, rfl⟩
          | map kt et =>
            by_cases hkey : KeyType W.E kt
            · obtain ⟨k', ki, vi, hki, hvi, rfl⟩ := byKind_map hb hk ((mapKeyOk_iff _ _).mpr hkey) hm
              rcases repr_map R.types hk S.holds with ⟨rfl, hat⟩ | ⟨a, es, kvs, rfl, hat, ha, hat2, hl, hks, hvs⟩
              · simp only [runT, execT, encodeMapT, readWord, hat, withReadT, if_true]
                exact says_parts (noMethod_kind hb) (.leaf (nil_leaf' (notStruct (by rw [hk]; simp)))) says_done
              · simp only [runT, execT, encodeMapT, readWord, hat, withReadT, ha, if_false, readMap, hat2]
                obtain ⟨z1, z2, z3⟩ := zip_entries (W := W) (path := path) hl
                refine says_parts (noMethod_kind hb) (.map (f := keyJobs W kt) hb hk hkey (visit_perm ho path kvs) fun kv _ => keyJobs_spec kt kv.1) ?_
                split
                · next h0 =>
                  have : kvs = [] := List.length_eq_zero_iff.mp (by omega)
                  subst this
                  have : W.visit path ([] : List (Val × Val)) = [] := by simp [World.visit]
                  rw [this]
                  exact says_done
                · rw [z1, z2]
                  refine says_entries (β := Val × Val) (K := fun kv => keyJobs W kt kv.1) (V := fun kv => [⟨et, false, kv.2⟩]) _ _ (fun z hz m dst => ?_) (fun z hz m dst => ?_)
                  · obtain ⟨j, h1, h2⟩ := z3 z hz
                    exact says_key R.types ih' hki (hks j _ _ h1 h2) _ _
                  · obtain ⟨j, h1, h2⟩ := z3 z hz
                    exact ih' n (Nat.le_refl n) _ _ _ _ _ _ ⟨⟨_, hvi⟩, hvs j _ _ h1 h2, fun h => nomatch h⟩ _ _
            · have hi := byKind_badMap hb hk (by rw [← mapKeyOk_iff] at hkey; simpa using hkey) hm
              subst hi
              exact says_stop rfl
        · exact says_meth R S hs hp _ _

end

end Jettison.Proofs
