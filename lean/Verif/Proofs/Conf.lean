import Verif.Proofs.OpStep

/-!
# All calls together
-/

namespace Jettison.Proofs
open Jettison Jettison.Model Jettison.Spec

/-- One of the calls made so far in the goroutine, by its caller or by methods, does not end within the bounds of the model. -/
def Over (W : World) (g n : Nat) (T : Thread) : Prop := ∃ c ∈ T.call :: T.inner, Unfit W g c ∨ c.alone W n = .nofuel

/-- What holds of every reachable configuration. -/
structure ConfInv (W : World) (g n : Nat) (C : Conf) (K : Known) (hs : Parts) (ws : Nat → Owed) : Prop where
  mem : MemInv C.sh hs
  gen : GenInv W C.sh K ws
  meets : ∀ i T, C.thr[i]? = some T → Meets W (Over W g n T) (CallPost (T.call.alone W n)) T.prog K (hs (some i)) (ws i)
  held : ∀ i T, C.thr[i]? = some T → HeldOk T.held (hs (some i))
  beyond : ∀ i, C.thr.length ≤ i → hs (some i) = .empty ∧ ws i = []
  kept : ∀ i, KeepOk (hs (some i))

/-- The appending methods of the calls only append. -/
def AllHonest (C : Conf) : Prop := ∀ T ∈ C.thr, ∀ c ∈ T.call :: T.inner, HonestAppend c.heap.meth

variable {W : World} {g n : Nat} {C C' : Conf} {K : Known} {hs : Parts} {ws : Nat → Owed}

theorem conf_init : ConfInv W g n ⟨.init, []⟩ ⟨[], []⟩ (fun _ => .empty) (fun _ => []) where
  mem := ⟨fun _ _ _ h => by (cases h), fun _ _ _ h => by (cases h), fun _ _ _ h => absurd rfl h, fun _ _ _ h => absurd rfl h, fun _ _ h => by (cases h),
    fun _ => List.nodup_nil, fun _ _ _ _ h => by (cases h)⟩
  gen := by
    refine ⟨rfl, rfl, fun _ _ h => ?_, fun _ _ h => ?_, fun _ h => ?_, fun _ _ _ h => ?_, fun _ _ _ h => ?_, fun _ _ _ h => ?_, fun _ _ h => ?_, fun _ _ _ _ _ h => ?_, fun _ => List.nodup_nil,
      fun _ _ h => ?_, fun _ _ h => ?_⟩ <;> first | (cases h; done) | simp [Shared.init] at h
  meets := fun _ _ h => by cases h
  held := fun _ _ h => by cases h
  beyond := fun _ _ => ⟨rfl, rfl⟩
  kept := fun _ _ => List.nil_prefix

theorem over_call {c : Call} {p : Prog Out} {held : List Nat} {inner : List Call} (h : Unfit W g c ∨ c.alone W n = .nofuel) : Over W g n ⟨c, p, held, inner⟩ := ⟨c, List.mem_cons_self, h⟩

/-- What a method leaves behind the end of the destination does not matter. -/
theorem scratch_set {D : Prop} {Post : PostC Out} {s : Sl} {k : Bytes → Prog Out} {h : Frag} {w : Owed} {c c' : Bytes} (hm : Meets W D Post (.op (.scratch s) k) K h w)
    (hc : h.arr s.arr = some c) (a1 : c'.length = c.length) (a2 : c'.take s.len = c.take s.len) : Meets W D Post (.op (.scratch s) k) K (h.setArr s.arr c') w := by
  intro K' hl
  obtain ⟨h0, h1, c0, h2, h3, h4⟩ := hm K' hl
  rw [hc] at h2; cases h2
  refine ⟨h0, h1, c', by simp [Frag.setArr], by omega, fun c2 b1 b2 => ?_⟩
  have e : (h.setArr s.arr c').setArr s.arr c2 = h.setArr s.arr c2 := by
    simp only [Frag.setArr, Frag.mk.injEq, and_true]
    funext x
    split <;> simp_all
  rw [e, a2]
  exact h4 c2 (by omega) (b2.trans a2)

/-- A method makes a call and goes on. -/
theorem inner_meets {D Dc : Prop} {Post : PostC Out} {s : Sl} {s0 : Option Sl} {k : Bytes → Prog Out} {h h1 : Frag} {w : Owed} {p : Prog Out} {c : Call} {l : List Nat} (hk : KeepOk h) (hl0 : HeldOk l h)
    (hm : Meets W D Post (.op (.scratch s) k) K h w) (hp : Meets W Dc (CallPostAt s0 h1 (c.alone W n)) p K h1 []) (hc : c.sound W n)
    (e1 : h1.obj = h.obj) (e2 : h1.keep = h.keep) (e3 : ∀ a, h.arr a ≠ none → h1.arr a = h.arr a)
    (e4 : ∀ s1, s0 = some s1 → h.arr s1.arr = none ∨ s1.arr = s.arr ∧ s.len ≤ s1.len) :
    Meets W (D ∨ Dc) Post (p.bind fun out => .op (.back n c l out) fun _ => .op (.scratch s) k) K h1 w := by
  obtain ⟨rfl, f1, cc, f2, f3, -⟩ := hm K (.refl K)
  have ne : h.arr s.arr ≠ none := by rw [f2]; simp
  have cont : ∀ K' h', K.Le K' → Wrecks s0 h1 h' → ∃ h'', h''.Sub h' ∧ h''.obj = h.obj ∧ KeepOk h'' ∧ Meets W (D ∨ Dc) Post (.op (.scratch s) k) K' h'' [] := by
    intro K' h' hl lv
    have own : ∃ c', h'.arr s.arr = some c' ∧ c'.length = cc.length ∧ c'.take s.len = cc.take s.len := by
      by_cases e : ∃ s1, s0 = some s1 ∧ s1.arr = s.arr
      · obtain ⟨s1, e5, e6⟩ := e
        obtain ⟨c1, c2, g1, g2, g3, g4⟩ := lv.own s1 e5
        rw [e6] at g1 g2
        rw [e3 _ ne, f2] at g1; cases g1
        rcases e4 s1 e5 with e7 | e7
        · rw [e6] at e7; exact absurd e7 ne
        · exact ⟨c2, g2, g3, take_le e7.2 g4⟩
      · refine ⟨cc, ?_, rfl, rfl⟩
        rw [lv.others s.arr (fun s1 h1 h2 => e ⟨s1, h1, h2.symm⟩) (by rw [e3 _ ne]; exact ne), e3 _ ne, f2]
    obtain ⟨c', g1, g2, g3⟩ := own
    refine ⟨h.setArr s.arr c', ⟨fun a x hx => ?_, fun id v hv => ?_, ?_⟩, rfl, hk.set (keep_write (by have := hk s.arr; rw [f2] at this; exact this) f1 g3), good_dead .inl (good_le hl (scratch_set hm f2 g2 g3))⟩
    · by_cases e : a = s.arr
      · subst e; simp only [Frag.setArr, if_pos] at hx; rw [g1]; exact hx
      · simp only [Frag.setArr, if_neg e] at hx
        have hn : h.arr a ≠ none := by rw [hx]; simp
        rw [lv.others a ?_ (by rw [e3 _ hn]; exact hn), e3 _ hn, hx]
        intro s1 e5 e6
        rcases e4 s1 e5 with e7 | e7
        · rw [← e6] at e7; exact hn e7
        · exact e (e6.trans e7.1)
    · have hv : h.obj id = some v := hv
      rw [lv.obj id (by rw [e1, hv]; simp), e1, hv]
    · exact e2.symm.trans lv.keep.symm
  refine good_bind (p := p) (good_mono ?_ (good_dead .inr hp))
  intro K1 h' w' out l1 hpost l2 K2 l3
  obtain ⟨rfl, hpost⟩ := hpost
  have go : out ≠ .panic → OutIs h' out (c.alone W n) → Leaves s0 h1 h' → OpGood W K2 h' [] (.back n c l out) fun K3 h3 w3 _ => Meets W (D ∨ Dc) Post (.op (.scratch s) k) K3 h3 w3 := by
    intro hne ho lv
    obtain ⟨h'', b1, b0, b2, b3⟩ := cont K2 h' (l1.trans l3) lv.wrecks
    exact ⟨rfl, ho, h'', b1, .inr ⟨hne, by rw [b0, lv.obj, e1]⟩, b2, b3⟩
  cases hR : c.alone W n with
  | ret o' e' =>
    rw [hR] at hpost go
    cases out with
    | ret o e =>
      cases o <;> cases o' <;> simp only at hpost
      · exact go (by simp) hpost.1 hpost.2
      · exact go (by simp) ⟨hpost.1, hpost.2.1⟩ hpost.2.2
    | panic => exact hpost.elim
    | bad => exact hpost.elim
  | panic =>
    rw [hR] at hpost
    cases out with
    | ret o e => cases o <;> exact hpost.elim
    | panic =>
      obtain ⟨h'', b1, b0, b2, b3⟩ := cont K2 h' (l1.trans l3) hpost
      exact ⟨rfl, by rw [hR]; trivial, h'', b1, .inl ⟨rfl, hl0.1, fun id => by rw [b0]; exact hl0.2 id⟩, b2, b3⟩
    | bad => exact hpost.elim
  | bad => exact absurd hR hc
  | nofuel =>
    rw [hR] at hpost
    cases out with
    | ret o e => cases o <;> exact hpost.elim
    | panic => exact hpost.elim
    | bad => exact hpost.elim

/-- What a call owed it still owes, unless it is done. -/
def Link (σ : Shared) (ws ws' : Nat → Owed) : Prop :=
  ∀ j p x, (p, x) ∈ ws j → (∃ x', (p, x') ∈ ws' j) ∨ ∃ s, σ.slots[p]? = some s ∧ s.done = true

theorem link_refl (σ : Shared) (ws : Nat → Owed) : Link σ ws ws := fun _ _ x h => .inl ⟨x, h⟩

/-- What has to stay still has to. -/
def KLink (hs hs' : Parts) : Prop := ∀ j a, (hs (some j)).keep a ≠ [] → (hs' (some j)).keep a = (hs (some j)).keep a

theorem MemInv.keep {σ : Shared} {hs' : Parts} (m : MemInv σ hs) (ha : ∀ o, (hs' o).arr = (hs o).arr) (ho : ∀ o, (hs' o).obj = (hs o).obj) : MemInv σ hs' := by
  refine ⟨fun o x c h => m.arrIn o x c (by rw [← ha]; exact h), fun o x c h => m.objIn o x c (by rw [← ho]; exact h),
    fun o o' x h1 h2 => m.arrOne o o' x (by rw [← ha]; exact h1) (by rw [← ha]; exact h2), fun o o' x h1 h2 => m.objOne o o' x (by rw [← ho]; exact h1) (by rw [← ho]; exact h2),
    fun P x hx => ?_, m.nodup, fun x x' s s' hx hx' h1 h2 => m.bufOne x x' s s' hx hx' (by rw [← ho]; exact h1) (by rw [← ho]; exact h2)⟩
  rw [ha, ho]
  exact m.pooled P x hx

theorem ostep_inv {i : Nat} (m : ConfInv W g n C K hs ws) (hst : OStep i C C') :
    ∃ K' hs' ws', ConfInv W g n C' K' hs' ws' ∧ Link C'.sh ws ws' ∧ KLink hs hs' := by
  obtain ⟨hi, ho⟩ := hst
  rename_i c o k held inner σ x
  have hg := m.meets i _ hi K (.refl K)
  obtain ⟨K', hs', ws', hS⟩ := op_step m.mem m.gen (m.kept i) hg ho
  have hlt := (List.getElem?_eq_some_iff.mp hi).1
  refine ⟨K', hs', ws', ⟨hS.mem, hS.gen, fun j T hj => ?_, fun j T hj => ?_, fun j hj => ?_, fun j => ?_⟩, fun j p y hy => ?_, fun j a _ => ?_⟩
  · by_cases e : j = i
    · subst e
      simp [hlt] at hj
      subst hj
      exact hS.post
    · simp only at hj
      rw [List.getElem?_set_ne (Ne.symm e)] at hj
      rw [(hS.others j e).1, (hS.others j e).2]
      exact good_le hS.le (m.meets j T hj)
  · by_cases e : j = i
    · subst e
      simp [hlt] at hj
      subst hj
      exact hS.held held (m.held j _ hi)
    · simp only at hj
      rw [List.getElem?_set_ne (Ne.symm e)] at hj
      rw [(hS.others j e).1]
      exact m.held j T hj
  · simp only [List.length_set] at hj
    have e : j ≠ i := by omega
    rw [(hS.others j e).1, (hS.others j e).2]
    exact m.beyond j hj
  · by_cases e : j = i
    · subst e; exact hS.kept.2
    · rw [(hS.others j e).1]; exact m.kept j
  · by_cases e : j = i
    · subst e
      have hp := (List.getElem?_eq_some_iff.mp (m.gen.owed j p y hy)).1
      have hp' : p < σ.slots.length := by
        rw [← hS.gen.slotsLen]; rw [← m.gen.slotsLen] at hp
        exact Nat.lt_of_lt_of_le hp hS.le.slots.length_le
      cases hd : (σ.slots[p]'hp').done with
      | true => exact .inr ⟨_, List.getElem?_eq_getElem hp', hd⟩
      | false =>
        obtain ⟨j', x', hx'⟩ := hS.gen.ower p _ (List.getElem?_eq_getElem hp') hd
        by_cases e : j' = j
        · subst e; exact .inl ⟨x', hx'⟩
        · rw [(hS.others j' e).2] at hx'
          exact absurd (m.gen.owedOne j' j p x' y hx' hy) e
    · exact .inl ⟨y, by rw [(hS.others j e).2]; exact hy⟩
  · by_cases e : j = i
    · subst e; rw [hS.kept.1]
    · rw [(hS.others j e).1]

/-- The memory of a call of Append when it starts. -/
def startFrag (a : Nat) (dst junk : Bytes) : Frag := ⟨fun x => if x = a then some (dst ++ junk) else none, fun _ => none, fun x => if x = a then dst else []⟩

/-- A call of Append starts: the bytes it was given have to stay. -/
theorem append_inv (hfl : FmtLong W.fmt) {c : Call} {dst : Bytes} (junk : Bytes) (hd : c.dst = some dst)
    (hh : AllHonest ⟨{ C.sh with arrs := C.sh.arrs ++ [dst ++ junk] }, C.thr ++ [⟨c, c.append W g n ⟨C.sh.arrs.length, dst.length⟩, [], []⟩]⟩) (m : ConfInv W g n C K hs ws) :
    ∃ hs', ConfInv W g n ⟨{ C.sh with arrs := C.sh.arrs ++ [dst ++ junk] }, C.thr ++ [⟨c, c.append W g n ⟨C.sh.arrs.length, dst.length⟩, [], []⟩]⟩ K hs' ws ∧
      KLink hs hs' ∧ (hs' (some C.thr.length)).keep C.sh.arrs.length = dst := by
  have hb := m.beyond _ (Nat.le_refl C.thr.length)
  refine ⟨hs.upd (some C.thr.length) (startFrag C.sh.arrs.length dst junk), ⟨?_, m.gen.congr rfl rfl rfl rfl rfl rfl, fun j T hj => ?_, fun j T hj => ?_, fun j hj => ?_, fun j => ?_⟩, ?_, ?_⟩
  · refine (m.mem.newArr C.thr.length (dst ++ junk)).keep (fun o => ?_) fun o => ?_
    · by_cases e : o = some C.thr.length
      · subst e; rw [upd_self, upd_self, hb.1]; rfl
      · rw [upd_ne _ _ e, upd_ne _ _ e]
    · by_cases e : o = some C.thr.length
      · subst e; rw [upd_self, upd_self, hb.1]; rfl
      · rw [upd_ne _ _ e, upd_ne _ _ e]
  · rcases snoc_get hj with hj | ⟨rfl, rfl⟩
    · have hlt := (List.getElem?_eq_some_iff.mp hj).1
      rw [upd_ne _ _ (by simp; omega)]
      exact m.meets j T hj
    · rw [upd_self, hb.2]
      exact good_dead over_call <| call_append_ok g n c hfl (hh _ (List.mem_append_right _ List.mem_cons_self) _ List.mem_cons_self) hd ⟨⟨dst ++ junk, by simp [startFrag], by simp, by simp⟩, by simp [startFrag]⟩ (fun id => rfl)
  · rcases snoc_get hj with hj | ⟨rfl, rfl⟩
    · have hlt := (List.getElem?_eq_some_iff.mp hj).1
      rw [upd_ne _ _ (by simp; omega)]
      exact m.held j T hj
    · rw [upd_self]
      exact ⟨List.nodup_nil, fun id => by simp [startFrag]⟩
  · simp at hj
    rw [upd_ne _ _ (by simp; omega)]
    exact m.beyond j (by omega)
  · by_cases e : j = C.thr.length
    · subst e
      rw [upd_self]
      intro a
      by_cases e : a = C.sh.arrs.length
      · subst e; simp [startFrag]
      · simp [startFrag, e]
    · rw [upd_ne _ _ (by simp [e])]; exact m.kept j
  · intro j a ha
    by_cases e : j = C.thr.length
    · subst e; rw [hb.1] at ha; exact absurd rfl ha
    · rw [upd_ne _ _ (by simp [e])]
  · rw [upd_self]; simp [startFrag]

theorem over_during {T : Thread} {c : Call} {p : Prog Out} {s : Sl} {k : Bytes → Prog Out} (h : Over W g n T ∨ Unfit W g c ∨ c.alone W n = .nofuel) : Over W g n (T.during n c p s k) := by
  rcases h with ⟨c', hc', h⟩ | h
  · rcases List.mem_cons.mp hc' with rfl | hc'
    · exact ⟨_, List.mem_cons_self, h⟩
    · exact ⟨c', List.mem_cons_of_mem _ (List.mem_cons_of_mem _ hc'), h⟩
  · exact ⟨c, List.mem_cons_of_mem _ List.mem_cons_self, h⟩

theorem honest_during {σ : Shared} {i : Nat} {T : Thread} {c : Call} {p : Prog Out} {s : Sl} {k : Bytes → Prog Out} (hh : AllHonest ⟨σ, C.thr.set i (T.during n c p s k)⟩)
    (hi : C.thr[i]? = some T) : HonestAppend c.heap.meth :=
  hh (T.during n c p s k) (List.mem_of_getElem? (i := i) (by simp [(List.getElem?_eq_some_iff.mp hi).1])) c (List.mem_cons_of_mem _ List.mem_cons_self)

/-- A method makes a call. -/
theorem inner_inv {σ : Shared} {hs' : Parts} {i : Nat} {T T' : Thread} (m : ConfInv W g n C K hs ws) (hi : C.thr[i]? = some T) (hT : T'.call = T.call ∧ T'.held = T.held)
    (mem : MemInv σ hs') (oth : ∀ j, j ≠ i → hs' (some j) = hs (some j)) (gen : GenInv W σ K ws) (eo : (hs' (some i)).obj = (hs (some i)).obj) (ek : (hs' (some i)).keep = (hs (some i)).keep)
    (kp : KeepOk (hs' (some i))) (hm : Meets W (Over W g n T') (CallPost (T.call.alone W n)) T'.prog K (hs' (some i)) (ws i)) :
    ∃ K' hs' ws', ConfInv W g n ⟨σ, C.thr.set i T'⟩ K' hs' ws' ∧ Link σ ws ws' ∧ KLink hs hs' := by
  have hlt := (List.getElem?_eq_some_iff.mp hi).1
  refine ⟨K, hs', ws, ⟨mem, gen, fun j T1 hj => ?_, fun j T1 hj => ?_, fun j hj => ?_, fun j => ?_⟩, link_refl _ _, fun j a _ => ?_⟩
  · by_cases e : j = i
    · subst e
      simp [hlt] at hj
      subst hj
      rw [hT.1]; exact hm
    · simp only at hj
      rw [List.getElem?_set_ne (Ne.symm e)] at hj
      rw [oth j e]
      exact m.meets j T1 hj
  · by_cases e : j = i
    · subst e
      simp [hlt] at hj
      subst hj
      rw [hT.2]
      exact ⟨(m.held j T hi).1, fun id => by rw [eo]; exact (m.held j T hi).2 id⟩
    · simp only at hj
      rw [List.getElem?_set_ne (Ne.symm e)] at hj
      rw [oth j e]
      exact m.held j T1 hj
  · simp only [List.length_set] at hj
    rw [oth j (by omega)]
    exact m.beyond j hj
  · by_cases e : j = i
    · subst e; exact kp
    · rw [oth j e]; exact m.kept j
  · by_cases e : j = i
    · subst e; rw [ek]
    · rw [oth j e]

theorem step_inv (hfl : FmtLong W.fmt) (hh : AllHonest C') (m : ConfInv W g n C K hs ws) (hst : CStep W g n C C') :
    ∃ K' hs' ws', ConfInv W g n C' K' hs' ws' ∧ Link C'.sh ws ws' ∧ KLink hs hs' := by
  cases hst with
  | @marshal c hd =>
    refine ⟨K, hs, ws, ⟨m.mem, m.gen, fun j T hj => ?_, fun j T hj => ?_, fun j hj => m.beyond j (by simp at hj; omega), m.kept⟩, link_refl _ _, fun _ _ _ => rfl⟩
    · rcases snoc_get hj with hj | ⟨rfl, rfl⟩
      · exact m.meets j T hj
      · rw [(m.beyond _ (Nat.le_refl _)).1, (m.beyond _ (Nat.le_refl _)).2]
        exact good_dead over_call <| call_marshal_ok g n c hfl (hh _ (List.mem_append_right _ List.mem_cons_self) _ List.mem_cons_self) hd
    · rcases snoc_get hj with hj | ⟨rfl, rfl⟩
      · exact m.held j T hj
      · rw [(m.beyond _ (Nat.le_refl _)).1]
        exact ⟨List.nodup_nil, fun id => by simp [Frag.empty]⟩
  | @append c dst junk hd =>
    obtain ⟨hs', m', hl, -⟩ := append_inv hfl junk hd hh m
    exact ⟨K, hs', ws, m', link_refl _ _, hl⟩
  | op hst => exact ostep_inv m hst
  | @method _ i hst =>
    cases hst with
    | @scribble T s k c c' hi hp hc a1 a2 =>
      have hm := m.meets i T hi
      rw [hp] at hm
      obtain ⟨-, f1, c0, f2, f3, -⟩ := hm K (.refl K)
      have := m.mem.arrIn _ _ _ f2
      rw [hc] at this; cases this
      refine ⟨K, hs.upd (some i) ((hs (some i)).setArr s.arr c'), ws, ⟨m.mem.setArr (by rw [f2]; simp), m.gen.congr rfl rfl rfl rfl rfl rfl, fun j T' hj => ?_, fun j T' hj => ?_, fun j hj => ?_, fun j => ?_⟩, link_refl _ _, fun j a _ => ?_⟩
      · by_cases e : j = i
        · subst e
          rw [hi] at hj; cases hj
          rw [upd_self, hp]
          exact scratch_set hm f2 a1 a2
        · rw [upd_ne _ _ (by simp [e])]; exact m.meets j T' hj
      · by_cases e : j = i
        · subst e
          rw [upd_self]; exact m.held j T' hj
        · rw [upd_ne _ _ (by simp [e])]; exact m.held j T' hj
      · have hlt := (List.getElem?_eq_some_iff.mp hi).1
        have e : j ≠ i := by rintro rfl; exact absurd hj (Nat.not_le.mpr hlt)
        rw [upd_ne _ _ (by simp [e])]; exact m.beyond j hj
      · by_cases e : j = i
        · subst e
          rw [upd_self]
          exact (m.kept j).set (keep_write (by have := m.kept j s.arr; rw [f2] at this; exact this) f1 a2)
        · rw [upd_ne _ _ (by simp [e])]; exact m.kept j
      · by_cases e : j = i
        · subst e; rw [upd_self]; rfl
        · rw [upd_ne _ _ (by simp [e])]
    | @innerMarshal T s k c hi hp hd hc =>
      have hm := m.meets i T hi
      rw [hp] at hm
      refine inner_inv m hi (σ := C.sh) (hs' := hs) ⟨rfl, rfl⟩ m.mem (fun _ _ => rfl) (m.gen.congr rfl rfl rfl rfl rfl rfl) rfl rfl (m.kept i) ?_
      have hw := (hm K (.refl K)).1
      refine good_dead ?_ (inner_meets (m.kept i) (m.held i T hi) hm (call_marshal_at g n c hfl ?_ hd) hc rfl rfl (fun _ _ => rfl) (fun _ e => by cases e))
      · exact over_during
      · exact honest_during hh hi
    | @innerAppend T s k c dst junk hi hp hd hc =>
      have hm := m.meets i T hi
      rw [hp] at hm
      have fr := m.mem.arr_fresh (some i)
      refine inner_inv m hi (hs' := hs.upd (some i) ((hs (some i)).setArr C.sh.arrs.length (dst ++ junk))) ⟨rfl, rfl⟩ (m.mem.newArr i _) (fun j hj => upd_ne _ _ (by simp [hj])) (m.gen.congr rfl rfl rfl rfl rfl rfl)
        (by rw [upd_self]; rfl) (by rw [upd_self]; rfl) (by rw [upd_self]; exact (m.kept i).new fr) ?_
      rw [upd_self]
      refine good_dead ?_ (inner_meets (m.kept i) (m.held i T hi) hm (call_append_at g n c hfl ?_ hd ⟨⟨dst ++ junk, by simp [Frag.setArr], by simp, by simp⟩, ?_⟩) hc rfl rfl (fun a ha => ?_) (fun s1 e => by cases e; exact .inl fr))
      · exact over_during
      · exact honest_during hh hi
      · show ((hs (some i)).keep _).length ≤ _
        rw [(m.kept i).none fr]; exact Nat.zero_le _
      · have : a ≠ C.sh.arrs.length := by rintro rfl; exact ha fr
        simp [Frag.setArr, this]
    | @innerDst T s k c b ml hi hp hb h1 h2 hd hc =>
      have hm := m.meets i T hi
      rw [hp] at hm
      obtain ⟨-, f1, c0, f2, f3, -⟩ := hm K (.refl K)
      have := m.mem.arrIn _ _ _ f2
      rw [hb] at this; cases this
      refine inner_inv m hi (σ := C.sh) (hs' := hs) ⟨rfl, rfl⟩ m.mem (fun _ _ => rfl) (m.gen.congr rfl rfl rfl rfl rfl rfl) rfl rfl (m.kept i) ?_
      refine good_dead ?_ (inner_meets (m.kept i) (m.held i T hi) hm (call_append_at g n c hfl ?_ hd ⟨⟨b, f2, h2, rfl⟩, Nat.le_trans f1 h1⟩) hc rfl rfl (fun _ _ => rfl) (fun s1 e => by cases e; exact .inr ⟨rfl, h1⟩))
      · exact over_during
      · exact honest_during hh hi
  | drop hid => exact ⟨K, hs, ws, ⟨m.mem.drop, m.gen.congr rfl rfl rfl rfl rfl rfl, m.meets, m.held, m.beyond, m.kept⟩, link_refl _ _, fun _ _ _ => rfl⟩

theorem set_call {σ : Shared} {i j : Nat} {T T0 T1 : Thread} (hi : C.thr[i]? = some T) (hj : C.thr[j]? = some T0) (h1 : T1.call = T0.call) (h2 : T0.inner <:+ T1.inner) (h3 : ∀ out, T0.prog ≠ .ret out) :
    ∃ T', (⟨σ, C.thr.set j T1⟩ : Conf).thr[i]? = some T' ∧ T'.call = T.call ∧ T.inner <:+ T'.inner ∧ (∀ out, T.prog = .ret out → T' = T) := by
  have hlt := (List.getElem?_eq_some_iff.mp hj).1
  by_cases e : i = j
  · subst e
    rw [hj] at hi; cases hi
    exact ⟨T1, by simp [hlt], h1, h2, fun out h => absurd h (h3 out)⟩
  · exact ⟨T, by simp only; rw [List.getElem?_set_ne (Ne.symm e)]; exact hi, rfl, List.suffix_refl _, fun _ _ => rfl⟩

/-- Calls stay. -/
theorem step_call (hst : CStep W g n C C') {i : Nat} {T : Thread} (hi : C.thr[i]? = some T) :
    ∃ T', C'.thr[i]? = some T' ∧ T'.call = T.call ∧ T.inner <:+ T'.inner ∧ (∀ out, T.prog = .ret out → T' = T) := by
  cases hst with
  | marshal hd => exact ⟨T, prefix_get ⟨_, rfl⟩ hi, rfl, List.suffix_refl _, fun _ _ => rfl⟩
  | append junk hd => exact ⟨T, prefix_get ⟨_, rfl⟩ hi, rfl, List.suffix_refl _, fun _ _ => rfl⟩
  | drop hid => exact ⟨T, hi, rfl, List.suffix_refl _, fun _ _ => rfl⟩
  | op hst =>
    obtain ⟨hj, ho⟩ := hst
    exact set_call hi hj rfl (List.suffix_refl _) (fun _ e => by cases e)
  | method hm => cases hm with
  | scribble _ _ _ _ _ => exact ⟨T, hi, rfl, List.suffix_refl _, fun _ _ => rfl⟩
  | innerMarshal hj hp _ _ => exact set_call hi hj rfl (List.suffix_cons _ _) (fun out e => by rw [hp] at e; cases e)
  | innerAppend junk hj hp _ _ => exact set_call hi hj rfl (List.suffix_cons _ _) (fun out e => by rw [hp] at e; cases e)
  | innerDst hj hp _ _ _ _ _ => exact set_call hi hj rfl (List.suffix_cons _ _) (fun out e => by rw [hp] at e; cases e)

theorem steps_call (hst : CSteps W g n C C') {i : Nat} {T : Thread} (hi : C.thr[i]? = some T) :
    ∃ T', C'.thr[i]? = some T' ∧ T'.call = T.call ∧ T.inner <:+ T'.inner ∧ (∀ out, T.prog = .ret out → T' = T) := by
  induction hst with
  | refl => exact ⟨T, hi, rfl, List.suffix_refl _, fun _ _ => rfl⟩
  | step h1 h2 ih =>
    obtain ⟨T1, a1, a2, a4, a3⟩ := ih
    obtain ⟨T2, b1, b2, b4, b3⟩ := step_call h2 a1
    exact ⟨T2, b1, b2.trans a2, a4.trans b4, fun out h => by have := a3 out h; subst this; exact b3 out h⟩

theorem honest_before (hst : CStep W g n C C') (hh : AllHonest C') : AllHonest C := by
  intro T hT c hc
  obtain ⟨i, hi, rfl⟩ := List.getElem_of_mem hT
  obtain ⟨T', a1, a2, a3, -⟩ := step_call hst (List.getElem?_eq_getElem hi)
  refine hh T' (List.mem_of_getElem? a1) c ?_
  rcases List.mem_cons.mp hc with rfl | hc
  · rw [← a2]; exact List.mem_cons_self
  · exact List.mem_cons_of_mem _ (a3.subset hc)

theorem reached_inv (hfl : FmtLong W.fmt) (hr : Reached W g n C) (hh : AllHonest C) : ∃ K hs ws, ConfInv W g n C K hs ws := by
  unfold Reached at hr
  generalize hC0 : (⟨Shared.init, []⟩ : Conf) = C0 at hr
  induction hr with
  | refl => subst hC0; exact ⟨_, _, _, conf_init⟩
  | step h1 h2 ih =>
    obtain ⟨K, hs, ws, m⟩ := ih (honest_before h2 hh)
    obtain ⟨K', hs', ws', m', -⟩ := step_inv hfl hh m h2
    exact ⟨K', hs', ws', m'⟩

/-- Every operation but waiting can be done. -/
theorem op_progress (m : MemInv C.sh hs) (m' : GenInv W C.sh K ws) {i : Nat} {o : Op} {Q : PostC o.Res} (hg : OpGood W K (hs (some i)) (ws i) o Q)
    (hw : ∀ c, o ≠ .wait c) : ∃ σ x, o.step C.sh σ x := by
  cases o with
  | loadInstr t => exact ⟨_, _, rfl, rfl⟩
  | loadCache => exact ⟨_, _, rfl, rfl⟩
  | storeCache l => exact ⟨_, (), rfl⟩
  | loadStruct k => exact ⟨_, _, rfl, rfl⟩
  | loadOrStore k =>
    simp only [Op.step]
    cases assoc k C.sh.structs with
    | some r => exact ⟨_, _, rfl, rfl⟩
    | none => exact ⟨_, _, rfl, rfl⟩
  | newClosure c => exact ⟨_, _, rfl, rfl⟩
  | setIns c f =>
    obtain ⟨x, w', k, hw, -⟩ := hg
    exact ⟨_, (), _, m'.owed i c x (by rw [hw]; exact List.mem_cons_self), rfl⟩
  | done c =>
    obtain ⟨f, w', hw, -⟩ := hg
    exact ⟨_, (), _, m'.owed i c _ (by rw [hw]; exact List.mem_cons_self), rfl⟩
  | storeStruct k f => exact ⟨_, (), rfl⟩
  | wait c => exact absurd rfl (hw c)
  | captured f =>
    obtain ⟨k, hk, -⟩ := hg
    have hlt := (List.getElem?_eq_some_iff.mp hk).1
    rw [m'.closLen] at hlt
    exact ⟨_, _, rfl, List.getElem?_eq_getElem hlt⟩
  | loadFields t => exact ⟨_, _, rfl, rfl⟩
  | addFields t l =>
    simp only [Op.step]
    cases assoc t C.sh.fields with
    | some r => exact ⟨_, _, rfl, rfl⟩
    | none => exact ⟨_, _, rfl, rfl⟩
  | loadEmpty t => exact ⟨_, _, rfl, rfl⟩
  | addEmpty t f =>
    simp only [Op.step]
    cases assoc t C.sh.empties with
    | some r => exact ⟨_, _, rfl, rfl⟩
    | none => exact ⟨_, _, rfl, rfl⟩
  | read s =>
    obtain ⟨-, c, h1, h2, -⟩ := hg
    exact ⟨_, _, rfl, c, m.arrIn _ _ _ h1, h2, rfl⟩
  | scratch s =>
    obtain ⟨-, -, c, h1, h2, -⟩ := hg
    exact ⟨_, _, c, c, m.arrIn _ _ _ h1, h2, rfl, rfl, rfl, rfl⟩
  | back n c l out => exact ⟨_, (), rfl⟩
  | write s b =>
    obtain ⟨c, h1, -, -⟩ := hg
    exact ⟨_, _, c, m.arrIn _ _ _ h1, .inr ⟨c, b, rfl, rfl, Nat.le_refl _, by simp, rfl, rfl⟩⟩
  | alloc b => exact ⟨_, _, [], rfl, rfl⟩
  | get P =>
    cases P with
    | buf => exact ⟨_, _, .inr ⟨_, _, .buf [], rfl, rfl⟩⟩
    | elems => exact ⟨_, _, .inr ⟨_, _, .elems, rfl, rfl⟩⟩
    | iter => exact ⟨_, _, .inr ⟨_, _, .iter, rfl, rfl⟩⟩
  | load id =>
    obtain ⟨v, h1, -⟩ := hg
    exact ⟨_, _, rfl, m.objIn _ _ _ h1⟩
  | store id v =>
    obtain ⟨v', hv⟩ := Option.ne_none_iff_exists'.mp hg.1
    exact ⟨_, (), (List.getElem?_eq_some_iff.mp (m.objIn _ _ _ hv)).1, rfl⟩
  | put P id => exact ⟨_, (), rfl⟩

/-- Waiting can end, or somebody who is not waiting has to do something first. -/
theorem wait_progress (m : ConfInv W g n C K hs ws) {i : Nat} {c : Call} {p : Nat} {k : Nat → Prog Out} {held : List Nat} {inner : List Call}
    (hi : C.thr[i]? = some ⟨c, .op (.wait p) k, held, inner⟩) :
    (∃ x, (Op.wait p).step C.sh C.sh x) ∨
      ∃ j T, j ≠ i ∧ C.thr[j]? = some T ∧ (T.prog = .crash ∨ ∃ o k, T.prog = .op o k ∧ ∃ σ x, o.step C.sh σ x) := by
  obtain ⟨hw, key, hk, -⟩ := m.meets i _ hi K (.refl K)
  have hlt := (List.getElem?_eq_some_iff.mp hk).1
  rw [m.gen.slotsLen] at hlt
  have hs1 := List.getElem?_eq_getElem hlt
  cases hd : (C.sh.slots[p]'hlt).done with
  | true =>
    obtain ⟨f, hf⟩ := Option.ne_none_iff_exists'.mp ((m.gen.slots p _ key hs1 hk).2 hd)
    refine .inl ⟨f, rfl, ?_⟩
    rw [hs1]
    generalize C.sh.slots[p]'hlt = s at hd hf
    cases s
    simp only at hd hf
    rw [hd, hf]
  | false =>
    obtain ⟨j, x, hj⟩ := m.gen.ower p _ hs1 hd
    have hji : j ≠ i := by rintro rfl; rw [hw] at hj; cases hj
    have hjlt : j < C.thr.length := by
      refine Classical.byContradiction fun h => ?_
      rw [(m.beyond j (by omega)).2] at hj; cases hj
    refine .inr ⟨j, C.thr[j], hji, List.getElem?_eq_getElem hjlt, ?_⟩
    have hm := m.meets j _ (List.getElem?_eq_getElem hjlt)
    cases hp : (C.thr[j]'hjlt).prog with
    | ret a =>
      rw [hp] at hm
      have := (hm K (.refl K)).1
      rw [this] at hj; cases hj
    | crash => exact .inl rfl
    | op o k' =>
      rw [hp] at hm
      have hg := hm K (.refl K)
      refine .inr ⟨o, k', rfl, op_progress m.mem m.gen hg ?_⟩
      rintro c rfl
      have := hg.1
      rw [this] at hj; cases hj

end Jettison.Proofs
