import Verif.Proofs.Once
import Verif.Props.WritesUnique
import Verif.Props.Shop

/-!
# C61: which methods are called, how often and in which order
-/

namespace Jettison.Props
open Jettison Jettison.Model Jettison.Spec Jettison.Proofs

variable {W : World} {H : Heap} {M : MethV} {o : EncOpts}

/-! ## The specification is the one of the parts -/

theorem keyJobs_one {k : TId} {x : Val} {js : List Job} (h : KeyJobs W k x js) (h1 : (W.E k).kind ≠ .string)
    (h2 : (W.E k).meths.text = true → IsPtr W.E k → x ≠ .nil) : js = [⟨k, false, x⟩] := by
  cases h with
  | string h => exact absurd h h1
  | nil _ h h' => exact absurd rfl (h2 h h')
  | key => rfl

/-- What a value asks for are its parts that are encoded with it. -/
theorem asks_parts {t : TId} {ca : Bool} {v : Val} {js : List Job} (h : Asks W o t ca v js) {t' : TId} {ca' : Bool} {v' : Val} :
    ⟨t', ca', v'⟩ ∈ js ↔ Encodes1 W o t ca v t' ca' v' := by
  cases h with
  | leaf h => exact ⟨fun h => (nomatch h), fun h' => (h _ _ _ h').elim⟩
  | ptr hb hk =>
    constructor
    · intro h; cases List.mem_singleton.mp h; exact .ptr hb hk
    · intro h
      cases h with
      | ptr _ h => rw [hk] at h; cases h; exact List.mem_singleton.mpr rfl
      | field _ h => obtain ⟨fs, h⟩ := h; simp only [HasFields] at h; rw [hk] at h; cases h
  | iface hb hk =>
    constructor
    · intro h; cases List.mem_singleton.mp h; exact .iface hb hk
    · intro h
      cases h with
      | iface => exact List.mem_singleton.mpr rfl
      | field _ h => obtain ⟨fs, h⟩ := h; simp only [HasFields] at h; rw [hk] at h; cases h
  | slice hb hk he =>
    constructor
    · intro h
      obtain ⟨x, hx, e⟩ := List.mem_map.mp h
      cases e
      exact .slice hb hk he hx
    · intro h
      cases h with
      | slice _ h _ hx => rw [hk] at h; cases h; exact List.mem_map.mpr ⟨_, hx, rfl⟩
      | field _ h => obtain ⟨fs, h⟩ := h; simp only [HasFields] at h; rw [hk] at h; cases h
  | array hb hk he =>
    constructor
    · intro h
      obtain ⟨x, hx, e⟩ := List.mem_map.mp h
      cases e
      exact .array hb hk he hx
    · intro h
      cases h with
      | array _ h _ hx => rw [hk] at h; cases h; exact List.mem_map.mpr ⟨_, hx, rfl⟩
      | field _ h => obtain ⟨fs, h⟩ := h; simp only [HasFields] at h; rw [hk] at h; cases h
  | struct hb hs hm hsub hkept hx =>
    constructor
    · intro h
      obtain ⟨y, hy, e⟩ := List.mem_map.mp h
      cases e
      exact .field hb hs ((hm.2 _).mp (hsub.subset hy)) ((hkept y (hsub.subset hy)).mp hy) (hx y hy)
    · intro h
      obtain ⟨fs, hs⟩ := hs
      simp only [HasFields] at hs
      cases h with
      | ptr _ h | slice _ h | array _ h | key _ h | elem _ h | iface _ h => rw [hs] at h; cases h
      | skey h | selem h => rw [hb.special] at h; cases h
      | field _ _ hc hl hf =>
        rename_i y _ _
        have h1 := (hkept y ((hm.2 _).mpr hc)).mpr hl
        exact List.mem_map.mpr ⟨y, h1, by rw [fieldAt_unique (hx y h1) hf]⟩
  | @map k e kvs perm f hb hk hkey hp hf =>
    constructor
    · intro h
      obtain ⟨kv, hkv, h⟩ := List.mem_flatMap.mp h
      have hkv' := hp.mem_iff.mp hkv
      rcases List.mem_append.mp h with h | h
      · have := hf kv hkv'
        generalize f kv.1 = js at this h
        obtain ⟨x, y⟩ := kv
        cases this with
        | string | nil => cases h
        | key h1 h2 => cases List.mem_singleton.mp h; exact .key hb hk hkey h1 h2 hkv'
      · cases List.mem_singleton.mp h
        exact .elem hb hk hkey hkv'
    · intro h
      cases h with
      | key _ h1 _ h3 h4 h5 =>
        rw [hk] at h1; cases h1
        refine List.mem_flatMap.mpr ⟨_, hp.mem_iff.mpr h5, List.mem_append_left _ ?_⟩
        rw [keyJobs_one (hf _ h5) h3 h4]
        exact List.mem_singleton.mpr rfl
      | elem _ h1 _ h5 =>
        rw [hk] at h1; cases h1
        exact List.mem_flatMap.mpr ⟨_, hp.mem_iff.mpr h5, List.mem_append_right _ (List.mem_singleton.mpr rfl)⟩
      | field _ h => obtain ⟨fs, h⟩ := h; simp only [HasFields] at h; rw [hk] at h; cases h
  | @smap kvs perm f g hs hp hf hg =>
    constructor
    · intro h
      obtain ⟨kv, hkv, h⟩ := List.mem_flatMap.mp h
      have hkv' := hp.mem_iff.mp hkv
      rcases List.mem_append.mp h with h | h
      · have := hf kv hkv'
        generalize f kv.1 = js at this h
        generalize hx : kv.1 = x at this
        cases this with
        | nil | bad | string => cases h
        | key h1 h2 => cases List.mem_singleton.mp h; exact .skey hs hkv' hx h1 h2
      · have := hg kv hkv'
        generalize g kv.2 = js at this h
        generalize hx : kv.2 = x at this
        cases this with
        | nil => cases h
        | elem => cases List.mem_singleton.mp h; exact .selem hs hkv' hx
    · intro h
      cases h with
      | skey _ h1 h2 h3 h4 =>
        refine List.mem_flatMap.mpr ⟨_, hp.mem_iff.mpr h1, List.mem_append_left _ ?_⟩
        have := hf _ h1
        rw [h2] at this ⊢
        generalize f _ = js at this ⊢
        cases this with
        | bad h => exact absurd h3 h
        | string h => exact absurd h h4
        | key => exact List.mem_singleton.mpr rfl
      | selem _ h1 h2 =>
        refine List.mem_flatMap.mpr ⟨_, hp.mem_iff.mpr h1, List.mem_append_right _ ?_⟩
        have := hg _ h1
        rw [h2] at this ⊢
        generalize g _ = js at this ⊢
        cases this with
        | elem => exact List.mem_singleton.mpr rfl
      | field hb => rw [hb.special] at hs; cases hs

/-! ## The same calls -/

theorem keyJobs_unique {k : TId} {x : Val} {js js' : List Job} (h : KeyJobs W k x js) (h' : KeyJobs W k x js') : js = js' := by
  cases h with
  | string h =>
    cases h' with
    | string => rfl
    | nil h1 => exact absurd h h1
    | key h1 => exact absurd h h1
  | nil h1 h2 h3 =>
    cases h' with
    | string h => exact absurd h h1
    | nil => rfl
    | key _ h => exact absurd rfl (h h2 h3)
  | key h1 h2 => exact (keyJobs_one h' h1 h2).symm

theorem syncKeyJobs_unique {x : Val} {js js' : List Job} (h : SyncKeyJobs W x js) (h' : SyncKeyJobs W x js') : js = js' := by
  cases h with
  | nil => cases h'; rfl
  | bad h =>
    cases h' with
    | key h1 => exact absurd h1 h
    | _ => rfl
  | string h =>
    cases h' with
    | key _ h1 => exact absurd h h1
    | _ => rfl
  | key h1 h2 =>
    cases h' with
    | bad h => exact absurd h1 h
    | string h => exact absurd h h2
    | key => rfl

theorem syncElemJobs_unique {x : Val} {js js' : List Job} (h : SyncElemJobs W x js) (h' : SyncElemJobs W x js') : js = js' := by
  cases h <;> cases h' <;> rfl

theorem methodFor_unique {t : TId} {ca : Bool} {v : Val} {m m' : MethKind} {rt rt' : TId} {x x' : Val} (h : MethodFor W t ca v m rt x)
    (h' : MethodFor W t ca v m' rt' x') : m = m' ∧ rt = rt' ∧ x = x' := by
  obtain ⟨-, h1, u, h2⟩ := h
  obtain ⟨-, h1', u', h2'⟩ := h'
  have := picks_unique h1 h1'
  subst this
  obtain ⟨rfl, rfl, -⟩ := receives_unique h2 h2'
  exact ⟨rfl, rfl, rfl⟩

theorem perm_flatMap {α β : Type} {l l' : List α} {f g : α → List β} (hp : l.Perm l') (h : ∀ a ∈ l, f a = g a) : (l.flatMap f).Perm (l'.flatMap g) := by
  have : l.flatMap f = l.flatMap g := by rw [List.flatMap_def, List.flatMap_def, List.map_congr_left h]
  rw [this]
  exact hp.flatMap_right g

/-- The parts asked for are the same, up to the order of the entries of maps. -/
theorem asks_unique {t : TId} {ca : Bool} {v : Val} {js js' : List Job} (h : Asks W o t ca v js) (h' : Asks W o t ca v js') : js.Perm js' := by
  have hnil : ∀ {js}, Asks W o t ca v js → (∀ t' ca' v', ¬ Encodes1 W o t ca v t' ca' v') → js = [] := by
    intro js h hn
    cases js with
    | nil => rfl
    | cons j js => obtain ⟨t', ca', v'⟩ := j; exact absurd ((asks_parts h).mp List.mem_cons_self) (hn _ _ _)
  cases h with
  | leaf hn => rw [hnil h' hn]
  | ptr hb hk =>
    cases h' with
    | leaf hn => rw [hnil (.ptr hb hk) hn]
    | ptr _ hk' => rw [hk] at hk'; cases hk'; exact .refl _
    | struct _ h => obtain ⟨fs, h⟩ := h; simp only [HasFields] at h; rw [hk] at h; cases h
  | iface hb hk =>
    cases h' with
    | leaf hn => rw [hnil (.iface hb hk) hn]
    | iface => exact .refl _
    | struct _ h => obtain ⟨fs, h⟩ := h; simp only [HasFields] at h; rw [hk] at h; cases h
  | slice hb hk he =>
    cases h' with
    | leaf hn => rw [hnil (.slice hb hk he) hn]
    | slice _ hk' => rw [hk] at hk'; cases hk'; exact .refl _
    | struct _ h => obtain ⟨fs, h⟩ := h; simp only [HasFields] at h; rw [hk] at h; cases h
  | array hb hk he =>
    cases h' with
    | leaf hn => rw [hnil (.array hb hk he) hn]
    | array _ hk' => rw [hk] at hk'; cases hk'; exact .refl _
    | struct _ h => obtain ⟨fs, h⟩ := h; simp only [HasFields] at h; rw [hk] at h; cases h
  | struct hb hs hm hsub hkept hx =>
    rename_i l kept x
    have hs' := hs
    obtain ⟨fs, hs' : (W.E t).kind = _⟩ := hs'
    cases h' with
    | leaf hn => rw [hnil (.struct hb hs hm hsub hkept hx) hn]
    | ptr _ h | slice _ h | array _ h | map _ h | iface _ h => rw [hs'] at h; cases h
    | smap h => rw [hb.special] at h; cases h
    | struct hb' hs2 hm' hsub' hkept' hx' =>
      rename_i l' kept' x'
      have := membersOf_unique hm hm'
      subst this
      have hnd := membersOf_nodup hm
      have hk : kept.Perm kept' := (List.perm_ext_iff_of_nodup (hsub.nodup hnd) (hsub'.nodup hnd)).mpr fun y =>
        ⟨fun hy => (hkept' y (hsub.subset hy)).mpr ((hkept y (hsub.subset hy)).mp hy), fun hy => (hkept y (hsub'.subset hy)).mpr ((hkept' y (hsub'.subset hy)).mp hy)⟩
      have : kept.map (fun y => (⟨y.decl.typ, ca, x y⟩ : Job)) = kept.map fun y => ⟨y.decl.typ, ca, x' y⟩ :=
        List.map_congr_left fun y hy => by rw [fieldAt_unique (hx y hy) (hx' y (hk.subset hy))]
      rw [this]
      exact hk.map _
  | map hb hk hkey hp hf =>
    cases h' with
    | leaf hn => rw [hnil (.map hb hk hkey hp hf) hn]
    | map _ hk' _ hp' hf' =>
      rw [hk] at hk'; cases hk'
      refine perm_flatMap (hp.trans hp'.symm) fun kv hkv => ?_
      rw [keyJobs_unique (hf kv (hp.subset hkv)) (hf' kv (hp.subset hkv))]
    | struct _ h => obtain ⟨fs, h⟩ := h; simp only [HasFields] at h; rw [hk] at h; cases h
  | smap hs hp hf hg =>
    cases h' with
    | leaf hn => rw [hnil (.smap hs hp hf hg) hn]
    | smap _ hp' hf' hg' =>
      refine perm_flatMap (hp.trans hp'.symm) fun kv hkv => ?_
      rw [syncKeyJobs_unique (hf kv (hp.subset hkv)) (hf' kv (hp.subset hkv)), syncElemJobs_unique (hg kv (hp.subset hkv)) (hg' kv (hp.subset hkv))]
    | struct hb => rw [hb.special] at hs; cases hs

theorem invokedAll_split : ∀ (a : List Job) {b : List Job} {evs : List Invoke}, InvokedAll W o (a ++ b) true evs →
    ∃ e1 e2, InvokedAll W o a true e1 ∧ InvokedAll W o b true e2 ∧ evs = e1 ++ e2
  | [], _, evs, h => ⟨[], evs, .nil, h, rfl⟩
  | j :: a, b, _, h => by
    cases h with
    | cons h1 h2 =>
      obtain ⟨e1, e2, a1, a2, rfl⟩ := invokedAll_split a h2
      exact ⟨_, e2, .cons h1 a1, a2, (List.append_assoc _ _ _).symm⟩

/-- The method and its receiver. -/
def Invoke.on (e : Invoke) : MethKind × TId × Val := (e.kind, e.typ, e.recv)

mutual
theorem invoked_same {j : Job} {fin : Bool} {evs : List Invoke} : Invoked W o j fin evs → fin = true → ∀ {evs'}, Invoked W o j true evs' →
    (evs.map Invoke.on).Perm (evs'.map Invoke.on)
  | .method h1 _, _, _, h' => by
    cases h' with
    | method h2 => obtain ⟨rfl, rfl, rfl⟩ := methodFor_unique h1 h2; exact .refl _
    | parts h2 => exact absurd h1 (h2 _ _ _)
  | .parts h1 h2 h3, hfin, _, h' => by
    cases h' with
    | method h4 => exact absurd h4 (h1 _ _ _)
    | parts _ h2' h3' => exact invokedAll_same h3 hfin (asks_unique h2 h2') h3'
  | .stop, hfin, _, _ => nomatch hfin

theorem invokedAll_same {js : List Job} {fin : Bool} {evs : List Invoke} : InvokedAll W o js fin evs → fin = true → ∀ {js'} {evs'}, js.Perm js' →
    InvokedAll W o js' true evs' → (evs.map Invoke.on).Perm (evs'.map Invoke.on)
  | .nil, _, js', _, hp, h' => by
    have := hp.nil_eq
    subst this
    cases h'
    exact .refl _
  | .stop, hfin, _, _, _, _ => nomatch hfin
  | .last _, hfin, _, _, _, _ => nomatch hfin
  | .cons (j := j) (js := js) h1 h2, hfin, js', _, hp, h' => by
    obtain ⟨a, b, rfl⟩ := List.append_of_mem (hp.subset List.mem_cons_self)
    have hp' : js.Perm (a ++ b) := (hp.trans List.perm_middle).cons_inv
    obtain ⟨e1, e2, a1, a2, rfl⟩ := invokedAll_split a h'
    cases a2 with
    | cons b1 b2 =>
      have c1 := invoked_same h1 rfl b1
      have c2 := invokedAll_same h2 hfin hp' (invokedAll_append b2 a a1)
      simp only [List.map_append] at c2 ⊢
      refine (c1.append c2).trans ?_
      rw [← List.append_assoc, ← List.append_assoc]
      exact (List.perm_append_comm).append_right _
end

/-! ## Errors end the calls -/

/-- All but the last method returned without error. -/
def AllButLastOk (l : List MethRes) : Prop := ∀ l1 r l2, l = l1 ++ r :: l2 → l2 ≠ [] → ∃ b, r = .ok b

theorem allButLast_append {l l' : List MethRes} (h : ∀ r ∈ l, ∃ b, r = .ok b) (h' : AllButLastOk l') : AllButLastOk (l ++ l') := by
  intro l1 r l2 e hne
  rcases List.append_eq_append_iff.mp e with ⟨a, rfl, rfl⟩ | ⟨a, rfl, e2⟩
  · exact h' _ _ _ rfl hne
  · cases a with
    | nil => exact h' [] r l2 e2.symm hne
    | cons x a =>
      simp only [List.cons_append, List.cons.injEq] at e2
      obtain ⟨rfl, -⟩ := e2
      exact h _ (by simp)

mutual
theorem invoked_ok {j : Job} {fin : Bool} {evs : List Invoke} : Invoked W o j fin evs → (fin = true → ∀ e ∈ evs, ∃ b, e.got = .ok b) ∧ AllButLastOk (evs.map Invoke.got)
  | .method h1 h2 => by
    refine ⟨fun hf e he => by rw [List.mem_singleton.mp he]; exact h2 hf, fun l1 r l2 e hne => ?_⟩
    have := congrArg List.length e
    simp only [List.length_map, List.length_cons, List.length_nil, List.length_append] at this
    exact absurd (List.length_eq_zero_iff.mp (by omega)) hne
  | .parts _ _ h => invokedAll_ok h
  | .stop => ⟨fun h => (nomatch h), fun l1 r l2 e _ => by simp at e⟩

theorem invokedAll_ok {js : List Job} {fin : Bool} {evs : List Invoke} : InvokedAll W o js fin evs →
    (fin = true → ∀ e ∈ evs, ∃ b, e.got = .ok b) ∧ AllButLastOk (evs.map Invoke.got)
  | .nil => ⟨fun _ e h => (nomatch h), fun l1 r l2 e _ => by simp at e⟩
  | .stop => ⟨fun h => (nomatch h), fun l1 r l2 e _ => by simp at e⟩
  | .last h => ⟨fun h => (nomatch h), (invoked_ok h).2⟩
  | .cons h1 h2 => by
    refine ⟨fun hf e he => (List.mem_append.mp he).elim ((invoked_ok h1).1 rfl e) ((invokedAll_ok h2).1 hf e), ?_⟩
    rw [List.map_append]
    refine allButLast_append (fun r hr => ?_) (invokedAll_ok h2).2
    obtain ⟨e, he, rfl⟩ := List.mem_map.mp hr
    exact (invoked_ok h1).1 rfl e he
end

theorem sameCalls_got {m : Mem} {l : List (Ask × MethRes)} {evs : List Invoke} (h : SameCalls W m o l evs) : l.map Prod.snd = evs.map Invoke.got := by
  induction h with
  | nil => rfl
  | cons h _ ih => rw [List.map_cons, List.map_cons, ih, h.got]

/-! ## The calls -/

/-- C61: however the methods behave, a call of `MarshalOpts` or `AppendOpts` calls exactly the
methods that the parts of the value ask for: each method that encodes a part once for each such part,
on the value of that part, with the context of the options, and in the order of the parts. If the call
comes to its end without error, all of them are called; otherwise the first ones. -/
theorem C61_calls (R : Ready W H M) (hw : OrderOk W.order) {t : TId} {v : Val} {w : Addr} (hx : ReprE W.E H.mem (some (t, w)) (.iface t v)) {opts : List (Option Opt)}
    (ho : prepare opts = .ok o) (n : Nat) {l : List (Ask × MethRes)} {r : Ret}
    (h : Course (marshalT W H.mem n (some (t, w)) opts) l r ∨ ∃ dst, Course (appendT W H.mem n dst (some (t, w)) opts) l r) :
    ∃ fin evs, (fin = true ↔ ∃ b, r = .ret (some b) none) ∧ Invoked W o ⟨t, isPtrK (W.E t).kind, v⟩ fin evs ∧ SameCalls W H.mem o l evs := by
  have key : ∀ dst r, Course (appendJSONT W (runT W H.mem o n) [] (some (t, w)) dst) l r →
      ∃ evs, Invoked W o ⟨t, isPtrK (W.E t).kind, v⟩ (Res.fine r) evs ∧ SameCalls W H.mem o l evs := by
    intro dst r h
    obtain ⟨e, h1, h2⟩ := says_held (o := o) (n := n) R (fun k _ => says_upto R hw k) hx [] dst _ _ h
    exact ⟨e, invokedAll_one_inv h1, h2⟩
  rcases h with h | ⟨dst, h⟩
  · simp only [marshalT, ho] at h
    obtain ⟨a, l1, l2, h1, h2, rfl⟩ := course_bind h
    cases h2
    rw [List.append_nil] at key ⊢
    obtain ⟨evs, a1, a2⟩ := key _ _ h1
    refine ⟨_, evs, ?_, a1, a2⟩
    cases a <;> simp [Res.fine, marshalRet]
  · simp only [appendT, ho] at h
    obtain ⟨a, l1, l2, h1, h2, rfl⟩ := course_bind h
    cases h2
    rw [List.append_nil] at key ⊢
    obtain ⟨evs, a1, a2⟩ := key _ _ h1
    refine ⟨_, evs, ?_, a1, a2⟩
    cases a <;> simp [Res.fine, appendRet]

/-- C61: a method that returned an error or panicked is the last one called. -/
theorem C61_error_last (R : Ready W H M) (hw : OrderOk W.order) {t : TId} {v : Val} {w : Addr} (hx : ReprE W.E H.mem (some (t, w)) (.iface t v)) {opts : List (Option Opt)}
    (ho : prepare opts = .ok o) (n : Nat) {l : List (Ask × MethRes)} {r : Ret}
    (h : Course (marshalT W H.mem n (some (t, w)) opts) l r ∨ ∃ dst, Course (appendT W H.mem n dst (some (t, w)) opts) l r) :
    (∀ l1 x l2, l = l1 ++ x :: l2 → l2 ≠ [] → ∃ b, x.2 = .ok b) ∧ ((∃ b, r = .ret (some b) none) → ∀ x ∈ l, ∃ b, x.2 = .ok b) := by
  obtain ⟨fin, evs, h1, h2, h3⟩ := C61_calls R hw hx ho n h
  obtain ⟨a1, a2⟩ := invoked_ok h2
  rw [← sameCalls_got h3] at a2
  refine ⟨fun l1 x l2 e hne => ?_, fun hr x hx => ?_⟩
  · refine a2 (l1.map Prod.snd) x.2 (l2.map Prod.snd) (by rw [e]; simp) (by simpa using hne)
  · have : x.2 ∈ evs.map Invoke.got := sameCalls_got h3 ▸ List.mem_map_of_mem hx
    obtain ⟨e, he, e'⟩ := List.mem_map.mp this
    rw [← e']
    exact a1 (h1.mpr hr) e he

/-- The same types. -/
structure SameTypes (W W' : World) : Prop where
  E : W'.E = W.E
  U : W'.U = W.U
  ptrTo : W'.ptrTo = W.ptrTo

theorem SameTypes.symm {W' : World} (T : SameTypes W W') : SameTypes W' W := ⟨T.E.symm, T.U.symm, T.ptrTo.symm⟩

theorem encodes1_types {W' : World} (T : SameTypes W W') {t : TId} {ca : Bool} {v : Val} {t' : TId} {ca' : Bool} {v' : Val} (h : Encodes1 W o t ca v t' ca' v') :
    Encodes1 W' o t ca v t' ca' v' := by
  obtain ⟨hE, hU, -⟩ := T
  cases h with
  | ptr h1 h2 => exact .ptr (by rw [hE]; exact h1) (by rw [hE]; exact h2)
  | iface h1 h2 => rw [← hE]; exact .iface (by rw [hE]; exact h1) (by rw [hE]; exact h2)
  | slice h1 h2 h3 h4 => exact .slice (by rw [hE]; exact h1) (by rw [hE]; exact h2) (by rw [hE]; exact h3) h4
  | array h1 h2 h3 h4 => exact .array (by rw [hE]; exact h1) (by rw [hE]; exact h2) (by rw [hE]; exact h3) h4
  | key h1 h2 h3 h4 h5 h6 => exact .key (by rw [hE]; exact h1) (by rw [hE]; exact h2) (by rw [hE]; exact h3) (by rw [hE]; exact h4) (by rw [hE]; exact h5) h6
  | elem h1 h2 h3 h4 => exact .elem (by rw [hE]; exact h1) (by rw [hE]; exact h2) (by rw [hE]; exact h3) h4
  | field h1 h2 h3 h4 h5 => exact .field (by rw [hE]; exact h1) (by rw [hE]; exact h2) (by rw [hE, hU]; exact h3) h4 h5
  | skey h1 h2 h3 h4 h5 => rw [← hE]; exact .skey (by rw [hE]; exact h1) h2 h3 (by rw [hE]; exact h4) (by rw [hE]; exact h5)
  | selem h1 h2 h3 => rw [← hE]; exact .selem (by rw [hE]; exact h1) h2 h3

theorem keyJobs_types {W' : World} (hE : W'.E = W.E) {k : TId} {x : Val} {js : List Job} (h : KeyJobs W k x js) : KeyJobs W' k x js := by
  cases h with
  | string h => exact .string (by rw [hE]; exact h)
  | nil a b c => exact .nil (by rw [hE]; exact a) (by rw [hE]; exact b) (by rw [hE]; exact c)
  | key a b => exact .key (by rw [hE]; exact a) (by rw [hE]; exact b)

theorem syncKeyJobs_types {W' : World} (hE : W'.E = W.E) {x : Val} {js : List Job} (h : SyncKeyJobs W x js) : SyncKeyJobs W' x js := by
  cases h with
  | nil => exact .nil
  | bad a => exact .bad (by rw [hE]; exact a)
  | string h => exact .string (by rw [hE]; exact h)
  | key a b => rw [← hE]; exact .key (by rw [hE]; exact a) (by rw [hE]; exact b)

theorem syncElemJobs_types {W' : World} (hE : W'.E = W.E) {x : Val} {js : List Job} (h : SyncElemJobs W x js) : SyncElemJobs W' x js := by
  cases h with
  | nil => exact .nil
  | elem => rw [← hE]; exact .elem

theorem asks_types {W' : World} (T : SameTypes W W') {t : TId} {ca : Bool} {v : Val} {js : List Job} (h : Asks W o t ca v js) : Asks W' o t ca v js := by
  have T' := T
  obtain ⟨hE, hU, -⟩ := T
  cases h with
  | leaf h => exact .leaf fun t' ca' v' h' => h _ _ _ (encodes1_types T'.symm h')
  | ptr h1 h2 => exact .ptr (by rw [hE]; exact h1) (by rw [hE]; exact h2)
  | iface h1 h2 => rw [← hE]; exact .iface (by rw [hE]; exact h1) (by rw [hE]; exact h2)
  | slice h1 h2 h3 => exact .slice (by rw [hE]; exact h1) (by rw [hE]; exact h2) (by rw [hE]; exact h3)
  | array h1 h2 h3 => exact .array (by rw [hE]; exact h1) (by rw [hE]; exact h2) (by rw [hE]; exact h3)
  | struct h1 h2 h3 h4 h5 h6 => exact .struct (by rw [hE]; exact h1) (by rw [hE]; exact h2) (by rw [hE, hU]; exact h3) h4 h5 h6
  | map h1 h2 h3 h4 h5 =>
    exact .map (by rw [hE]; exact h1) (by rw [hE]; exact h2) (by rw [hE]; exact h3) h4 fun kv hkv => keyJobs_types hE (h5 kv hkv)
  | smap h1 h2 h3 h4 => exact .smap (by rw [hE]; exact h1) h2 (fun kv hkv => syncKeyJobs_types hE (h3 kv hkv)) fun kv hkv => syncElemJobs_types hE (h4 kv hkv)

theorem methodFor_types {W' : World} (T : SameTypes W W') {t : TId} {ca : Bool} {v : Val} {m : MethKind} {rt : TId} {x : Val} :
    MethodFor W' t ca v m rt x ↔ MethodFor W t ca v m rt x := by
  obtain ⟨hE, hU, hp⟩ := T
  rw [MethodFor, MethodFor, hE, hp]

mutual
theorem invoked_types {W' : World} (T : SameTypes W W') {j : Job} {fin : Bool} {evs : List Invoke} : Invoked W o j fin evs → Invoked W' o j fin evs
  | .method h1 h2 => .method ((methodFor_types T).mpr h1) h2
  | .parts h1 h2 h3 => .parts (fun m rt x h => h1 m rt x ((methodFor_types T).mp h)) (asks_types T h2) (invokedAll_types T h3)
  | .stop => .stop

theorem invokedAll_types {W' : World} (T : SameTypes W W') {js : List Job} {fin : Bool} {evs : List Invoke} : InvokedAll W o js fin evs → InvokedAll W' o js fin evs
  | .nil => .nil
  | .stop => .stop
  | .last h => .last (invoked_types T h)
  | .cons h1 h2 => .cons (invoked_types T h1) (invokedAll_types T h2)
end

/-- C61: two calls on the same value that come to their end call the same methods on the same
receivers equally often, whatever the methods return, whatever the order of map iteration, sorting,
the sizes of buffers, the bounds, the places in memory, and whether it is `MarshalOpts` or
`AppendOpts`. -/
theorem C61_same {W' : World} {H' : Heap} {M' : MethV} (R : Ready W H M) (hw : OrderOk W.order) (R' : Ready W' H' M') (hw' : OrderOk W'.order)
    (T : SameTypes W W') {t : TId} {v : Val} {w w' : Addr}
    (hx : ReprE W.E H.mem (some (t, w)) (.iface t v)) (hx' : ReprE W'.E H'.mem (some (t, w')) (.iface t v)) {opts : List (Option Opt)}
    (ho : prepare opts = .ok o) (n n' : Nat) {l l' : List (Ask × MethRes)} {b b' : Bytes}
    (h : Course (marshalT W H.mem n (some (t, w)) opts) l (.ret (some b) none) ∨ ∃ dst, Course (appendT W H.mem n dst (some (t, w)) opts) l (.ret (some b) none))
    (h' : Course (marshalT W' H'.mem n' (some (t, w')) opts) l' (.ret (some b') none) ∨
      ∃ dst, Course (appendT W' H'.mem n' dst (some (t, w')) opts) l' (.ret (some b') none)) :
    ∃ evs evs', SameCalls W H.mem o l evs ∧ SameCalls W' H'.mem o l' evs' ∧ (evs.map Invoke.on).Perm (evs'.map Invoke.on) := by
  obtain ⟨fin, evs, h1, h2, h3⟩ := C61_calls R hw hx ho n h
  obtain ⟨fin', evs', h1', h2', h3'⟩ := C61_calls R' hw' hx' ho n' h'
  have e := h1.mpr ⟨_, rfl⟩
  have e' := h1'.mpr ⟨_, rfl⟩
  subst e e'
  refine ⟨evs, evs', h3, h3', invoked_same h2 rfl ?_⟩
  have := invoked_types T.symm h2'
  rwa [T.E] at this

/-- C61: nil and rejected options call nothing. -/
theorem C61_none (m : Mem) (n : Nat) (dst : Bytes) {v : Eface} {opts : List (Option Opt)} (hv : v = none ∨ ∃ e, prepare opts = .error e) {l : List (Ask × MethRes)} {r : Ret}
    (h : Course (marshalT W m n v opts) l r ∨ Course (appendT W m n dst v opts) l r) : l = [] := by
  cases v with
  | none => rcases h with h | h <;> cases h <;> rfl
  | some x =>
    rcases hv with hv | ⟨e, he⟩
    · cases hv
    · rcases h with h | h
      · simp only [marshalT, he] at h; cases h; rfl
      · simp only [appendT, he] at h; cases h; rfl

/-! ## Methods with state -/

/-- Methods that read and change a state, and the same methods on values instead of places. -/
structure Stateful (W : World) (m : Mem) (σ : Type) where
  meth : σ → MethKind → Option Ctx → TId → Loc → Bytes → MethRes × σ
  val : σ → MethKind → Option Ctx → TId → Val → Bytes → MethRes × σ
  same : ∀ s k ctx t w x dst, Recv W.E m t w x → meth s k ctx t w dst = val s k ctx t x dst

/-- The methods when each step of the encoding has its state. -/
def Stateful.at {m : Mem} {σ : Type} (S : Stateful W m σ) (st : Path → σ) : Heap := ⟨m, fun path k ctx t w dst => (S.meth (st path) k ctx t w dst).1⟩

/-- The same on values. -/
def Stateful.valAt {m : Mem} {σ : Type} (S : Stateful W m σ) (st : Path → σ) : MethV := fun path k ctx t x dst => (S.val (st path) k ctx t x dst).1

/-- C61: what a call returns with methods that have a state of their own is what the call returns
with methods that know the step at which they are called. So what is proved for those, whatever they
return at each step, holds for these. -/
theorem C61_stateful (R : Ready W H M) {σ : Type} (S : Stateful W H.mem σ) (s : σ) (n : Nat) (v : Eface) (opts : List (Option Opt)) (dst : Bytes) :
    (∃ st, Ready W (S.at st) (S.valAt st) ∧ ((marshalT W H.mem n v opts).play S.meth s).1 = marshalOpts W (S.at st) n v opts) ∧
    (∃ st, Ready W (S.at st) (S.valAt st) ∧ ((appendT W H.mem n dst v opts).play S.meth s).1 = appendOpts W (S.at st) n dst v opts) := by
  have hR : ∀ st, Ready W (S.at st) (S.valAt st) := fun st =>
    ⟨R.types, R.apart, R.nest, R.tab, R.sort, fun path m ctx t w x dst hx => congrArg Prod.fst (S.same _ _ _ _ _ _ _ hx)⟩
  obtain ⟨st, h⟩ := play_answer S.meth (once_marshalT (W := W) (m := H.mem) n v opts) s
  obtain ⟨st', h'⟩ := play_answer S.meth (once_appendT (W := W) (m := H.mem) n dst v opts) s
  exact ⟨⟨st, hR st, h.trans (answer_marshalT (H := S.at st) n v opts)⟩, ⟨st', hR st', h'.trans (answer_appendT (H := S.at st') n dst v opts)⟩⟩

/-- C61: methods without state are those of the other theorems. -/
theorem C61_stateless (n : Nat) (v : Eface) (opts : List (Option Opt)) (dst : Bytes) :
    (marshalT W H.mem n v opts).answer H.meth = marshalOpts W H n v opts ∧ (appendT W H.mem n dst v opts).answer H.meth = appendOpts W H n dst v opts :=
  ⟨answer_marshalT n v opts, answer_appendT n dst v opts⟩

/-! ## Examples -/

/-- The course of a conversation with methods fixed in advance. -/
theorem answer_course {α : Type} (meth : Path → MethKind → Option Ctx → TId → Loc → Bytes → MethRes) : ∀ c : Talk α,
    Course c ((c.asked meth).map fun q => (q, meth q.path q.kind q.ctx q.typ q.recv q.dst)) (c.answer meth)
  | .done _ => .done
  | .ask _ _ => .ask (answer_course meth _)

/-- A `[]Loud` of three strings; the method of the second one fails. -/
def loudCells : List (Addr × Cell) := [(100, .slice 200 3), (200, .str (b! "a")), (216, .str (b! "fail")), (232, .str (b! "b"))]

/-- Two calls, then the error. -/
example : ∃ l r, Course (marshalT shopW (shopH loudCells).mem 9 (some (46, 100)) []) l r ∧ l.length = 2 ∧
    Ready shopW (shopH loudCells) (univM shopMeth) ∧ OrderOk shopW.order ∧
    ReprE shopW.E (shopH loudCells).mem (some (46, 100)) (.iface 46 (.slice [.str (b! "a"), .str (b! "fail"), .str (b! "b")])) ∧ prepare [] = .ok defaultEncOpts :=
  ⟨_, _, answer_course (shopH loudCells).meth _, by rw [List.length_map]; decide +kernel, shop_ready _, shop_order, shop_holds 8 (by decide +kernel), rfl⟩

/-- A method that counts its calls: the first one returns 0, the second one 1. -/
def counting : Stateful shopW (shopH [(100, .slice 200 2), (200, .str (b! "a")), (216, .str (b! "b"))]).mem Nat where
  meth s _ _ _ _ _ := (.ok (if s = 0 then b! "0" else b! "1"), s + 1)
  val s _ _ _ _ _ := (.ok (if s = 0 then b! "0" else b! "1"), s + 1)
  same _ _ _ _ _ _ _ _ := rfl

example : ((marshalT shopW (shopH [(100, .slice 200 2), (200, .str (b! "a")), (216, .str (b! "b"))]).mem 9 (some (46, 100)) []).play counting.meth 0) =
    (.ret (some (b! "[0,1]")) none, 2) := by decide +kernel

end Jettison.Props
