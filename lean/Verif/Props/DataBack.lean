import Verif.Props.Data
import Verif.Props.Respell

/-!
# C85: the data of the generic form is that of the value
-/

namespace Jettison.Props
open Jettison Jettison.Spec Jettison.Model Jettison.Proofs

variable {W : World} {H : Heap} {M : MethV} {o : EncOpts} {t : TId} {ca q : Bool} {v : Val} {j : Json}

theorem pick_list {α β γ : Type} {R : α → β → γ → Prop} : ∀ {vs : List α} {js : List β}, js.length = vs.length →
    (∀ (i : Nat) x y, vs[i]? = some x → js[i]? = some y → ∃ z, R x y z) →
    ∃ l : List (γ × β), l.map Prod.snd = js ∧ ∀ (i : Nat) x p, vs[i]? = some x → l[i]? = some p → R x p.2 p.1
  | [], [], _, _ => ⟨[], rfl, fun i x p h => by simp at h⟩
  | [], _ :: _, h, _ => by simp at h
  | _ :: _, [], h, _ => by simp at h
  | x :: vs, y :: js, hl, h => by
    obtain ⟨z, hz⟩ := h 0 x y rfl rfl
    obtain ⟨l, h1, h2⟩ := pick_list (vs := vs) (js := js) (by simpa using hl) fun i x y hx hy => h (i + 1) x y (by simpa using hx) (by simpa using hy)
    refine ⟨(z, y) :: l, by simp [h1], fun i x' p hx hp => ?_⟩
    cases i with
    | zero => simp at hx hp; subst hx hp; exact hz
    | succ i => exact h2 i x' p (by simpa using hx) (by simpa using hp)

theorem list_denoted {t' : TId} {w : Val} {ys : List Val} (hl : AnyList W.E t' w ys) (h : HeldDenotes W M o (.iface t' w) j) :
    ∃ js, j = .arr js ∧ js.length = ys.length ∧ ∀ (i : Nat) y j, ys[i]? = some y → js[i]? = some j → HeldDenotes W M o y j := by
  obtain ⟨hb, e, he, ⟨hk, rfl⟩ | ⟨n, hk, rfl⟩⟩ := hl
  · cases h with
    | val h =>
      rw [hk] at h
      replace h : Denotes W M o t' false false _ j := h
      cases h with
      | slice _ hk2 _ h1 h2 => rw [hk] at hk2; cases hk2; exact ⟨_, rfl, h1, fun i y j hy hj => (dyn_denotes he).mp (h2 i y j hy hj)⟩
      | bytes _ hk2 h1 => rw [hk] at hk2; cases hk2; exact absurd h1 (dyn_elem he)
      | rawBytes _ hk2 h1 => rw [hk] at hk2; cases hk2; exact absurd h1 (dyn_elem he)
      | struct _ hst => exact absurd hst (not_struct hk (by simp))
      | _ => byKindRest hb
  · cases h with
    | val h =>
      rw [hk] at h
      replace h : Denotes W M o t' false false _ j := h
      cases h with
      | array _ hk2 _ h1 h2 => rw [hk] at hk2; cases hk2; exact ⟨_, rfl, h1, fun i y j hy hj => (dyn_denotes he).mp (h2 i y j hy hj)⟩
      | byteArray _ hk2 h1 => rw [hk] at hk2; cases hk2; exact absurd h1 (dyn_elem he)
      | struct _ hst => exact absurd hst (not_struct hk (by simp))
      | _ => byKindRest hb

theorem map_denoted {t' k e : TId} {kvs : List (Val × Val)} (hb : ByKind W.E t' false) (hk : (W.E t').kind = .map k e) (he : DynType W.E e)
    (h : HeldDenotes W M o (.iface t' (.map kvs)) j) : ∃ ms ms', j = .obj ms' ∧ ms.length = kvs.length ∧
      (∀ (i : Nat) kv m, kvs[i]? = some kv → ms[i]? = some m → KeyDenotes W M o k false kv.1 m.1) ∧
      (∀ (i : Nat) kv m, kvs[i]? = some kv → ms[i]? = some m → HeldDenotes W M o kv.2 m.2) ∧ ms'.Perm ms := by
  cases h with
  | val h =>
    rw [map_flag hk] at h
    cases h with
    | map _ hk2 h1 h2 h3 h4 => rw [hk] at hk2; cases hk2; exact ⟨_, _, rfl, h1, h2, fun i kv m a b => (dyn_denotes he).mp (h3 i kv m a b), h4⟩
    | struct _ hst => exact absurd hst (not_struct hk (by simp))
    | _ => byKindRest hb

theorem list_back {e : TId} {vs ys : List Val} {js : List Json} (hlen : ys.length = vs.length) (h1 : js.length = ys.length)
    (h : ∀ (i : Nat) x y j, vs[i]? = some x → ys[i]? = some y → js[i]? = some j → ∃ z, Denotes W M o e ca false x z ∧ SameData z j) :
    ∃ js', js'.length = vs.length ∧ (∀ (i : Nat) x z, vs[i]? = some x → js'[i]? = some z → Denotes W M o e ca false x z) ∧ SameData (.arr js') (.arr js) := by
  obtain ⟨l, rfl, h2⟩ := pick_list (R := fun x j z => Denotes W M o e ca false x z ∧ SameData z j) (h1.trans hlen) fun i x j hx hj => by
    obtain ⟨y, hy⟩ := elem_beside hlen hx
    exact h i x y j hx hy hj
  have hll : l.length = vs.length := by simpa using h1.trans hlen
  refine ⟨l.map Prod.fst, by rw [List.length_map, hll], fun i x z hx hz => ?_, .arr fun p hp => ?_⟩
  · rw [List.getElem?_map, Option.map_eq_some_iff] at hz
    obtain ⟨p, hp, rfl⟩ := hz
    exact (h2 i x p hx hp).1
  · obtain ⟨i, hi⟩ := List.getElem?_of_mem hp
    obtain ⟨x, hx⟩ := elem_beside hll.symm hi
    exact (h2 i x p hx hi).2

/-- C85: and the data of the generic form is, up to the order of members, data of the value. -/
theorem C85_back {y : Val} (hu : Untyped W o t ca v y) (h : HeldDenotes W M o y j) : ∃ j', Denotes W M o t ca false v j' ∧ SameData j' j := by
  classical
  induction hu generalizing j with
  | same hi hc =>
    cases h with
    | val h =>
      rcases hc with rfl | hc
      · exact ⟨j, h, .same _⟩
      · exact ⟨j, denotes_flag hc h, .same _⟩
  | heldNil hd => exact ⟨j, (dyn_denotes hd).mpr h, .same _⟩
  | held hd _ ih =>
    obtain ⟨z, h1, h2⟩ := ih h
    exact ⟨z, (dyn_denotes hd).mpr (.val h1), h2⟩
  | ptrNil hk hb => cases h; exact ⟨_, .ptrNil hb hk, .same _⟩
  | ptr hk hb _ ih =>
    obtain ⟨z, h1, h2⟩ := ih h
    exact ⟨z, .ptr hb hk h1, h2⟩
  | sliceNil hk hb he hk' hb' he' =>
    cases h with
    | val h =>
      rw [hk'] at h
      replace h : Denotes W M o _ false false _ j := h
      refine ⟨j, ?_, .same _⟩
      cases h with
      | sliceNil _ _ _ h => exact .sliceNil hb hk he h
      | sliceNil0 _ _ h => exact .sliceNil0 hb hk h
      | bytesNil _ hk2 h1 => rw [hk'] at hk2; cases hk2; exact absurd h1 (dyn_elem he')
      | struct _ hst => exact absurd hst (not_struct hk' (by simp))
      | _ => byKindRest hb'
  | slice hk hb he hl hlen _ ih =>
    obtain ⟨js, rfl, h1, h2⟩ := list_denoted hl h
    obtain ⟨js', k1, k2, k3⟩ := list_back hlen h1 fun i x y j hx hy hj => ih i x y hx hy (h2 i y j hy hj)
    exact ⟨_, .slice hb hk he k1 k2, k3⟩
  | array hk hb he hl hlen _ ih =>
    obtain ⟨js, rfl, h1, h2⟩ := list_denoted hl h
    obtain ⟨js', k1, k2, k3⟩ := list_back hlen h1 fun i x y j hx hy hj => ih i x y hx hy (h2 i y j hy hj)
    exact ⟨_, .array hb hk (fun h => absurd h he) k1 k2, k3⟩
  | mapNil hk hb hm =>
    obtain ⟨hb', e', hk', he'⟩ := hm
    cases h with
    | val h =>
      rw [map_flag hk'] at h
      refine ⟨j, ?_, .same _⟩
      cases h with
      | mapNil _ _ h => exact .mapNil hb hk h
      | mapNil0 _ _ h => exact .mapNil0 hb hk h
      | struct _ hst => exact absurd hst (not_struct hk' (by simp))
      | _ => byKindRest hb'
  | @map t ca k e t' kvs kvs' hk hb hm hkeys _ ih =>
    obtain ⟨hb', e', hk', he'⟩ := hm
    obtain ⟨ms, ms', rfl, h1, h2, h3, h4⟩ := map_denoted hb' hk' he' h
    have hlen : kvs'.length = kvs.length := by simpa using congrArg List.length hkeys
    obtain ⟨l, rfl, k2⟩ := pick_list (vs := kvs) (js := ms) (R := fun kv m z => KeyDenotes W M o k false kv.1 m.1 ∧ Denotes W M o e false false kv.2 z ∧ SameData z m.2)
      (h1.trans hlen) fun i x m hx hm => by
        obtain ⟨y, hy⟩ := elem_beside hlen hx
        obtain ⟨z, a1, a2⟩ := ih i x y hx hy (h3 i y m hy hm)
        refine ⟨z, ?_, a1, a2⟩
        have e := congrArg (fun l => l[i]?) hkeys
        simp only [List.getElem?_map, hx, hy, Option.map_some, Option.some.injEq] at e
        rw [← e]
        exact h2 i y m hy hm
    have hll : l.length = kvs.length := by simpa using h1.trans hlen
    refine ⟨.obj (l.map fun p => (p.2.1, p.1)), .map (ms := l.map fun p => (p.2.1, p.1)) hb hk (by rw [List.length_map, hll]) ?_ ?_ (.refl _),
      .obj (l := l.map fun p => (p.2.1, p.1, p.2.2)) (by simp [Function.comp_def]) (by simpa [Function.comp_def] using h4) fun x hx => ?_⟩
    · intro i kv m hi hj
      rw [List.getElem?_map, Option.map_eq_some_iff] at hj
      obtain ⟨p, hp, rfl⟩ := hj
      exact (k2 i kv p hi hp).1
    · intro i kv m hi hj
      rw [List.getElem?_map, Option.map_eq_some_iff] at hj
      obtain ⟨p, hp, rfl⟩ := hj
      exact (k2 i kv p hi hp).2.1
    · obtain ⟨p, hp, rfl⟩ := List.mem_map.mp hx
      obtain ⟨i, hi⟩ := List.getElem?_of_mem hp
      obtain ⟨kv, hkv⟩ := elem_beside hll.symm hi
      exact (k2 i kv p hkv hi).2.2
  | @struct t ca t' v kvs shown hs hb hA hsh hE hlen hn _ ih =>
    obtain ⟨b2, l, b1, b3⟩ := hsh
    obtain ⟨hb', k, e, hk, hks, he⟩ := hA
    obtain ⟨ms, ms', rfl, h1, h2, h3, h4⟩ := map_denoted hb' hk he h
    obtain ⟨f, hf⟩ := exists_fun ((.null, .null, .nil) : Json × Json × Val) (l := shown) (R := fun m z => FieldAt v m.path z.2.2 ∧
        Denotes W M o m.decl.typ ca false z.2.2 z.1 ∧ SameData z.1 z.2.1 ∧ ∃ i : Nat, shown[i]? = some m ∧ ms[i]? = some (m.name, z.2.1)) (by
      intro m hm
      obtain ⟨i, hi⟩ := List.getElem?_of_mem hm
      obtain ⟨kv, hkv⟩ := elem_beside hlen hi
      obtain ⟨⟨c, z'⟩, hms⟩ := elem_beside h1 hkv
      obtain ⟨hq, hc, x, hx⟩ := hE m hm
      obtain ⟨z, a1, a2⟩ := ih i m kv x hi hkv hx (h3 i kv _ hkv hms)
      have d := h2 i kv _ hkv hms
      rw [hn i m kv hi hkv] at d
      refine ⟨(z, z', x), hx, a1, a2, i, hi, ?_⟩
      cases d with
      | str _ hsc =>
        have e : c = m.name := strContent_unique hsc hc fun _ _ h h' => coerced_unique h h'
        rw [hms, e]
      | num h | text h => exact absurd hks h)
    have hmap : shown.map (fun m => (m.name, (f m).2.1)) = ms := by
      apply List.ext_getElem?
      intro i
      rw [List.getElem?_map]
      cases hi : shown[i]? with
      | none =>
        have := List.getElem?_eq_none_iff.mp hi
        rw [Option.map_none, List.getElem?_eq_none (by omega)]
      | some m =>
        obtain ⟨-, -, -, i', hj, hj'⟩ := hf m (List.mem_of_getElem? hi)
        have : i = i' := (List.getElem?_inj (List.getElem?_eq_some_iff.mp hi).1 b2).mp (hi.trans hj.symm)
        subst this
        rw [hj', Option.map_some]
    have hin : ∀ m, m ∈ l.filter (fun m => decide (m ∈ shown)) ↔ m ∈ shown := fun m => by
      simp only [List.mem_filter, decide_eq_true_eq, and_iff_right_iff_imp]
      exact fun h => ((b3 m).mp h).1
    have hsub : (l.filter (fun m => decide (m ∈ shown))).Sublist l := List.filter_sublist
    generalize l.filter (fun m => decide (m ∈ shown)) = kept at hin hsub
    have hperm : kept.Perm shown := (List.perm_ext_iff_of_nodup ((membersOf_nodup b1).sublist hsub) b2).mpr hin
    refine ⟨_, .struct (q' := fun _ => false) (x := fun m => (f m).2.2) (j := fun m => (f m).1) hb hs b1 hsub
      (fun m hm => by rw [hin, b3]; exact ⟨fun h => h.2, fun h => ⟨hm, h⟩⟩) (fun m hm => (hf m ((hin m).mp hm)).1)
      (fun m hm => by simp [(hE m ((hin m).mp hm)).1]) (fun m hm => (hf m ((hin m).mp hm)).2.1),
      .obj (l := shown.map fun m => (m.name, (f m).1, (f m).2.1)) ?_ ?_ fun x hx => ?_⟩
    · simpa [Function.comp_def] using hperm.map fun m => (m.name, (f m).1)
    · rw [List.map_map]
      simpa [Function.comp_def, hmap] using h4
    · obtain ⟨m, hm, rfl⟩ := List.mem_map.mp hx
      exact (hf m hm).2.2.1

/-- C85 for calls for the generic form: what they return without error is, up to the order of members, a text of data of the value. -/
theorem C85_back_calls_partial (D : DocReady W H M o) {d : TId} {x : Val} {w : Addr} (hx : ReprE W.E H.mem (some (d, w)) (.iface d x)) (hf : AllFine W M o d x)
    (hu : Untyped W o t ca v (.iface d x)) {opts : List (Option Opt)} (ho : prepare opts = .ok o) {n : Nat} :
    (∀ b, marshalOpts W H n (some (d, w)) opts = .ret (some b) none → ∃ j j', CompactText j b ∧ Denotes W M o t ca false v j' ∧ SameData j' j) ∧
    (∀ dst out, appendOpts W H n dst (some (d, w)) opts = .ret (some out) none →
      ∃ j j' b, out = dst ++ b ∧ CompactText j b ∧ Denotes W M o t ca false v j' ∧ SameData j' j) := by
  obtain ⟨h1, h2⟩ := C30_document_partial D hx hf ho (n := n)
  constructor
  · intro b h
    obtain ⟨j, k1, k2⟩ := h1 b h
    obtain ⟨j', k3, k4⟩ := C85_back hu (.val k2)
    exact ⟨j, j', k1, k3, k4⟩
  · intro dst out h
    obtain ⟨j, b, k0, k1, k2⟩ := h2 dst out h
    obtain ⟨j', k3, k4⟩ := C85_back hu (.val k2)
    exact ⟨j, j', b, k0, k1, k3, k4⟩

end Jettison.Props
