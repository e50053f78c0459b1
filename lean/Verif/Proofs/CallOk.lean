import Verif.Proofs.EncOk2

/-!
# Whole calls on shared state
-/

namespace Jettison.Proofs
open Jettison Jettison.Model Jettison.Spec

variable {W : World} {X D : Prop} {S : List TId} {rk : TId → Nat} {α β : Type} {K : Known} {h h' h1 h2 : Frag} {s s' s1 s2 : Sl} {d : Bytes}

/-- What a call leaves: the result, and nothing taken from a pool unless it panics. -/
def CallPost (R : Ret) : PostC Out := fun _ h' w' out => w' = [] ∧
  match out, R with
  | .ret none e, .ret none e' => e = e' ∧ ∀ id, h'.obj id = none
  | .ret (some s) e, .ret (some b) e' => e = e' ∧ SliceIs h' s b ∧ ∀ id, h'.obj id = none
  | .panic, .panic => True
  | .bad, .bad => True
  | _, _ => False

/-- What a call leaves of the memory of who calls it: everything, but for what is beyond the end of the
slice it was given. -/
structure Leaves (s : Option Sl) (h h' : Frag) : Prop where
  obj : h'.obj = h.obj
  keep : h'.keep = h.keep
  others : ∀ a, (∀ s0, s = some s0 → a ≠ s0.arr) → h.arr a ≠ none → h'.arr a = h.arr a
  own : ∀ s0, s = some s0 → ∃ c c', h.arr s0.arr = some c ∧ h'.arr s0.arr = some c' ∧ c'.length = c.length ∧ c'.take s0.len = c.take s0.len

theorem Moves.leaves (m : Moves h s h' s') : Leaves (some s) h h' :=
  ⟨m.objs, m.keep, fun a ha hn => m.others a (ha s rfl) hn, fun s0 e => by cases e; exact m.own⟩

theorem leaves_refl (h : Frag) : Leaves none h h := ⟨rfl, rfl, fun _ _ _ => rfl, fun _ e => by cases e⟩

/-- What a panic in a call leaves of the memory of who calls it: everything as well, but the objects it had
taken from the pools are not back. -/
structure Wrecks (s : Option Sl) (h h' : Frag) : Prop where
  obj : ∀ id, h.obj id ≠ none → h'.obj id = h.obj id
  keep : h'.keep = h.keep
  others : ∀ a, (∀ s0, s = some s0 → a ≠ s0.arr) → h.arr a ≠ none → h'.arr a = h.arr a
  own : ∀ s0, s = some s0 → ∃ c c', h.arr s0.arr = some c ∧ h'.arr s0.arr = some c' ∧ c'.length = c.length ∧ c'.take s0.len = c.take s0.len

theorem Spoils.wrecks (m : Spoils h s h') : Wrecks (some s) h h' :=
  ⟨m.objs, m.keep, fun a ha hn => m.others a (ha s rfl) hn, fun s0 e => by cases e; exact m.own⟩

theorem Leaves.wrecks {s : Option Sl} (m : Leaves s h h') : Wrecks s h h' := ⟨fun _ _ => by rw [m.obj], m.keep, m.others, m.own⟩

/-- What a call leaves, made with the memory `h0`. -/
def CallPostAt (s0 : Option Sl) (h0 : Frag) (R : Ret) : PostC Out := fun _ h' w' out => w' = [] ∧
  match out, R with
  | .ret none e, .ret none e' => e = e' ∧ Leaves s0 h0 h'
  | .ret (some s) e, .ret (some b) e' => e = e' ∧ SliceIs h' s b ∧ Leaves s0 h0 h'
  | .panic, .panic => Wrecks s0 h0 h'
  | .bad, .bad => True
  | _, _ => False

theorem callPost_of {s0 : Option Sl} {h0 : Frag} (ho : ∀ id, h0.obj id = none) {R : Ret} {w' : Owed} {out : Out} (hp : CallPostAt s0 h0 R K h' w' out) : CallPost R K h' w' out := by
  refine ⟨hp.1, ?_⟩
  have hp := hp.2
  cases out with
  | ret o e =>
    cases R with
    | ret o' e' =>
      cases o <;> cases o' <;> simp only at hp ⊢
      · exact ⟨hp.1, fun id => by rw [hp.2.obj]; exact ho id⟩
      · exact ⟨hp.1, hp.2.1, fun id => by rw [hp.2.2.obj]; exact ho id⟩
    | panic => cases o <;> exact hp
    | bad => cases o <;> exact hp
    | nofuel => cases o <;> exact hp
  | panic => cases R <;> first | exact hp | trivial
  | bad => cases R <;> exact hp

theorem marshalP_ok {H : Heap} {o : EncOpts} {g : Nat} (n : Nat) (fit : ¬X → Fit W S rk) (dyn : ¬X → Dyn H S g) (hfl : FmtLong W.fmt) (hm : HonestAppend H.meth) (t : TId) (w : Addr) (ht : ¬X → t ∈ S) :
    Meets W (X ∨ (marshalJSON W H o n (some (t, w))) = .nofuel) (CallPostAt none h (marshalJSON W H o n (some (t, w)))) (marshalP W H o g n t w) K h [] := by
  unfold marshalP marshalJSON appendJSON
  refine good_step (good_dead .inl (cachedInstr_ok fit g K h [] t fun hx => ⟨ht hx, (dyn hx).room⟩)) ?_
  rintro K1 c l1 ⟨i, hi, hd⟩
  simp only [hi]
  refine good_call fun K2 l2 => ?_
  intro b s0 c0 hb hs0 hk0
  refine good_call fun K3 l3 => ⟨.buf s0, by simp [Frag.setObj, Frag.setArr], ?_⟩
  simp only
  refine good_call fun K4 l4 => ⟨by simp [Frag.setObj, Frag.setArr], ?_⟩
  generalize hh1 : Frag.setObj (Frag.setArr (Frag.setObj h b (.buf s0)) s0.arr c0) b (.buf ⟨s0.arr, 0⟩) = h1
  have hb1 : h1.obj b = some (.buf ⟨s0.arr, 0⟩) := by subst hh1; simp [Frag.setObj]
  have ho1 : ∀ id, id ≠ b → h1.obj id = h.obj id := by
    intro id hid; subst hh1; simp [Frag.setObj, Frag.setArr, hid]
  have hr1 : ∀ a, h.arr a ≠ none → a ≠ s0.arr ∧ h1.arr a = h.arr a := by
    intro a ha
    have : a ≠ s0.arr := by rintro rfl; exact ha hs0
    subst hh1; exact ⟨this, by simp [Frag.setObj, Frag.setArr, this]⟩
  have ha1 : SliceIs h1 ⟨s0.arr, 0⟩ [] := by
    subst hh1
    exact ⟨⟨c0, by simp [Frag.setObj, Frag.setArr], Nat.zero_le _, rfl⟩, by show (h.keep s0.arr).length ≤ 0; rw [hk0]; exact Nat.le_refl _⟩
  have hkk : h1.keep = h.keep := by subst hh1; rfl
  have hk1 : h1.keep s0.arr = [] := by rw [hkk]; exact hk0
  have lK := (l2.trans l3).trans l4
  have away : ∀ {h2 s2}, Moves h1 ⟨s0.arr, 0⟩ h2 s2 → ∀ a, h.arr a ≠ none → h2.arr a = h.arr a ∧ a ≠ s2.arr := by
    intro h2 s2 m2 a ha
    obtain ⟨hne, e⟩ := hr1 a ha
    refine ⟨by rw [m2.others a hne (by rw [e]; exact ha), e], ?_⟩
    rintro rfl
    rcases m2.res with e' | e'
    · exact hne e'
    · rw [e] at e'; exact ha e'.1
  refine good_rec (runP_ok fit dyn hfl hm n K4 K4 (.refl K4) [] c i (.heap w) (den_le lK hd)) ha1 ?_ ?_ ?_ ?_ (fun hb => by simp only [hb, marshalRet])
  · intro K5 h2 s2 x l5 hx m2 hh2
    rw [hx]
    simp only [marshalRet]
    refine good_call fun K6 l6 => ⟨by rw [m2.objs, hb1]; simp, ?_⟩
    have hh3 : SliceIs (h2.setObj b (.buf s2)) s2 x := hh2
    refine good_read hh3 fun K7 l7 => ?_
    refine good_call fun K8 l8 => ?_
    intro a junk ha hka
    have hne : a ≠ s2.arr := by
      rintro rfl; obtain ⟨⟨c, e, -⟩, -⟩ := hh3; rw [e] at ha; cases ha
    refine good_call fun K9 l9 => ⟨s2, by simp [Frag.setObj, Frag.setArr], ?_, m2.free hk1, ?_⟩
    · obtain ⟨⟨c, e, -⟩, -⟩ := hh2
      simp [Frag.setObj, Frag.setArr, hne.symm, e]
    refine good_pure fun _ _ => ⟨rfl, rfl, ⟨⟨x ++ junk, ?_, by simp, by simp⟩, by show (h2.keep a).length ≤ _; rw [show h2.keep a = [] from hka]; exact Nat.zero_le _⟩,
      ⟨funext fun id => ?_, m2.keep.trans hkk, fun a' _ ha' => ?_, fun _ e => by cases e⟩⟩
    · simp [Frag.delArr, Frag.delObj, Frag.setArr, hne]
    · by_cases e : id = b
      · subst e; simp [Frag.delArr, Frag.delObj, hb]
      · simp [Frag.delArr, Frag.delObj, Frag.setArr, Frag.setObj, e, m2.objs, ho1 id e]
    · obtain ⟨e1, e2⟩ := away m2 a' ha'
      have e3 : a' ≠ a := by
        rintro rfl
        exact ha' (by rw [← e1]; exact ha)
      simp [Frag.delArr, Frag.delObj, Frag.setArr, Frag.setObj, e1, e2, e3]
  · intro K5 h2 e s2 x l5 hx m2 hh2
    rw [hx]
    simp only [marshalRet]
    refine good_call fun K6 l6 => ⟨by rw [m2.objs, hb1]; simp, ?_⟩
    refine good_call fun K9 l9 => ⟨s2, by simp [Frag.setObj], ?_, m2.free hk1, ?_⟩
    · obtain ⟨⟨c, e, -⟩, -⟩ := hh2
      simp [Frag.setObj, e]
    refine good_pure fun _ _ => ⟨rfl, rfl, ⟨funext fun id => ?_, m2.keep.trans hkk, fun a' _ ha' => ?_, fun _ e => by cases e⟩⟩
    · by_cases e : id = b
      · subst e; simp [Frag.delArr, Frag.delObj, hb]
      · simp [Frag.delArr, Frag.delObj, Frag.setObj, e, m2.objs, ho1 id e]
    · obtain ⟨e1, e2⟩ := away m2 a' ha'
      simp [Frag.delArr, Frag.delObj, Frag.setObj, e1, e2]
  · intro K5 h2 l5 hx m2
    rw [hx]
    refine good_pure fun _ _ => ⟨rfl, fun id hid => ?_, m2.keep.trans hkk, fun a _ ha => ?_, fun _ e => by cases e⟩
    · have hne : id ≠ b := by rintro rfl; exact hid hb
      rw [m2.objs id (by rw [ho1 id hne]; exact hid), ho1 id hne]
    · obtain ⟨hne, e⟩ := hr1 a ha
      rw [m2.others a hne (by rw [e]; exact ha), e]
  · intro K5 h2 l5 hx
    rw [hx]
    exact good_pure fun _ _ => ⟨rfl, trivial⟩

theorem appendP_ok {H : Heap} {o : EncOpts} {g : Nat} (n : Nat) (fit : ¬X → Fit W S rk) (dyn : ¬X → Dyn H S g) (hfl : FmtLong W.fmt) (hm : HonestAppend H.meth) (t : TId) (w : Addr) (ht : ¬X → t ∈ S)
    (hh : SliceIs h s d) :
    Meets W (X ∨ (appendTop W H o n d (some (t, w))) = .nofuel) (CallPostAt (some s) h (appendTop W H o n d (some (t, w)))) (appendP W H o g n t w s) K h [] := by
  unfold appendP appendTop
  refine good_rec (appendJSON_ok fit dyn (runP_ok fit dyn hfl hm n K) [] (some (t, w)) ht) hh ?_ ?_ ?_ ?_ (fun hb => by simp only [hb, appendRet])
  · intro K5 h2 s2 x l5 hx m2 hh2
    rw [hx]
    exact good_pure fun _ _ => ⟨rfl, rfl, hh2, m2.leaves⟩
  · intro K5 h2 e s2 x l5 hx m2 hh2
    rw [hx]
    exact good_pure fun _ _ => ⟨rfl, rfl, hh2, m2.leaves⟩
  · intro K5 h2 l5 hx m2
    rw [hx]
    exact good_pure fun _ _ => ⟨rfl, m2.wrecks⟩
  · intro K5 h2 l5 hx
    rw [hx]
    exact good_pure fun _ _ => ⟨rfl, trivial⟩

/-- The order of map visits does not matter to the operations. -/
theorem opGood_world (c : Call) {h : Frag} {w : Owed} {o : Op} {Q Q' : PostC o.Res} (hq : ∀ K' h' w' x, Q K' h' w' x → Q' K' h' w' x)
    (hg : OpGood (c.world W) K h w o Q) : OpGood W K h w o Q' :=
  opGood_mono (W := W) (fun K' h' w' x _ hx => hq K' h' w' x hx) (by cases o <;> exact hg)

theorem meets_world (c : Call) {Post : PostC α} : ∀ {p : Prog α} {K : Known} {h : Frag} {w : Owed}, Meets (c.world W) D Post p K h w → Meets W D Post p K h w
  | .ret _, _, _, _, hg => hg
  | .crash, _, _, _, hg => hg
  | .op _ _, _, _, _, hg => fun K' hl => opGood_world c (fun _ _ _ _ hx => meets_world c hx) (hg K' hl)

theorem Fit.world (f : Fit W S rk) (c : Call) : Fit (c.world W) S rk := ⟨f.bound, f.parts, f.fields⟩

/-- What makes generation for a call end within the bounds. -/
structure CallFits (W : World) (S : List TId) (rk : TId → Nat) (g : Nat) (c : Call) : Prop where
  fit : Fit W S rk
  dyn : Dyn c.heap S g
  top : ∀ t w, c.value = some (t, w) → t ∈ S

/-- No finite set of types covers the call within the bounds. -/
def Unfit (W : World) (g : Nat) (c : Call) : Prop := ¬ ∃ S rk, CallFits W S rk g c

theorem fit_or (g : Nat) (c : Call) : ∃ S rk, ¬ Unfit W g c → CallFits W S rk g c := by
  by_cases h : Unfit W g c
  · exact ⟨[], fun _ => 0, fun h' => absurd h h'⟩
  · obtain ⟨S, rk, h'⟩ := Classical.not_not.mp h
    exact ⟨S, rk, fun _ => h'⟩

theorem call_marshal_at (g n : Nat) (c : Call) (hfl : FmtLong W.fmt) (hm : HonestAppend c.heap.meth) (hd : c.dst = none) :
    Meets W (Unfit W g c ∨ (c.alone W n) = .nofuel) (CallPostAt none h (c.alone W n)) (c.marshal W g n) K h [] := by
  obtain ⟨S, rk, ok⟩ := fit_or (W := W) g c
  unfold Call.marshal Call.alone marshalOpts
  rw [hd]
  cases hv : c.value with
  | none =>
    refine good_call fun K1 l1 => ?_
    intro a junk ha hka
    refine good_pure fun _ _ => ⟨rfl, rfl, ⟨⟨_, by simp [Frag.setArr]; rfl, by simp, by simp⟩, ?_⟩, ⟨rfl, rfl, fun a' _ ha' => ?_, fun _ e => by cases e⟩⟩
    · show (h.keep a).length ≤ _
      rw [hka]; exact Nat.zero_le _
    · have : a' ≠ a := by rintro rfl; exact ha' ha
      simp [Frag.setArr, this]
  | some x =>
    obtain ⟨t, w⟩ := x
    simp only
    cases hp : prepare c.opts with
    | error e => exact good_ret fun _ _ => ⟨rfl, rfl, leaves_refl h⟩
    | ok o => exact meets_world c (marshalP_ok (W := c.world W) n (fun hx => (ok hx).fit.world c) (fun hx => (ok hx).dyn) hfl hm t w fun hx => (ok hx).top t w hv)

theorem call_append_at (g n : Nat) (c : Call) (hfl : FmtLong W.fmt) (hm : HonestAppend c.heap.meth) {dst : Bytes} (hd : c.dst = some dst)
    (hh : SliceIs h s dst) :
    Meets W (Unfit W g c ∨ (c.alone W n) = .nofuel) (CallPostAt (some s) h (c.alone W n)) (c.append W g n s) K h [] := by
  obtain ⟨S, rk, ok⟩ := fit_or (W := W) g c
  unfold Call.append Call.alone appendOpts
  rw [hd]
  cases hv : c.value with
  | none =>
    refine good_add hh fun K1 h1 s1 l1 m1 hh1 => ?_
    exact good_pure fun _ _ => ⟨rfl, rfl, hh1, m1.leaves⟩
  | some x =>
    obtain ⟨t, w⟩ := x
    simp only
    cases hp : prepare c.opts with
    | error e => exact good_ret fun _ _ => ⟨rfl, rfl, (Moves.refl hh).leaves⟩
    | ok o => exact meets_world c (appendP_ok (W := c.world W) n (fun hx => (ok hx).fit.world c) (fun hx => (ok hx).dyn) hfl hm t w (fun hx => (ok hx).top t w hv) hh)

theorem call_marshal_ok (g n : Nat) (c : Call) (hfl : FmtLong W.fmt) (hm : HonestAppend c.heap.meth) (hd : c.dst = none) :
    Meets W (Unfit W g c ∨ (c.alone W n) = .nofuel) (CallPost (c.alone W n)) (c.marshal W g n) K .empty [] :=
  good_mono (fun _ _ _ _ _ hp => callPost_of (fun _ => rfl) hp) (call_marshal_at g n c hfl hm hd)

theorem call_append_ok (g n : Nat) (c : Call) (hfl : FmtLong W.fmt) (hm : HonestAppend c.heap.meth) {dst : Bytes} (hd : c.dst = some dst)
    (hh : SliceIs h s dst) (ho : ∀ id, h.obj id = none) :
    Meets W (Unfit W g c ∨ (c.alone W n) = .nofuel) (CallPost (c.alone W n)) (c.append W g n s) K h [] :=
  good_mono (fun _ _ _ _ _ hp => callPost_of ho hp) (call_append_at g n c hfl hm hd hh)

end Jettison.Proofs
