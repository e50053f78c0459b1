import Verif.Spec.Loosened
import Verif.Props.Flat
import Verif.Props.Std

/-!
# C83: containers of interfaces are encoded as containers of their elements
-/

namespace Jettison.Props
open Jettison Jettison.Spec Jettison.Model Jettison.Proofs

variable {W : World} {M : MethV} {o : EncOpts} {t : TId} {ca q : Bool} {v : Val} {b : Bytes}

theorem elem_beside {α β : Type} {xs : List α} {ys : List β} {i : Nat} {y : β} (h : xs.length = ys.length) (hy : ys[i]? = some y) : ∃ x, xs[i]? = some x := by
  obtain ⟨hi, -⟩ := List.getElem?_eq_some_iff.mp hy
  exact ⟨_, List.getElem?_eq_getElem (h ▸ hi)⟩

theorem free_writes (G : GoTypes W.E W.ptrTo) {e : TId} {vs : List Val} (hd : IsIface W.E e → DynType W.E e) (hf : AddrFree W.E e vs)
    (ht : ∀ x ∈ vs, HasType W.E e x) {ca' : Bool} {x : Val} (hx : x ∈ vs) (h : Writes W M o e ca false x b) : Writes W M o e ca' false x b := by
  rcases hf with hp | hi | hn
  · exact writes_ptr_ca hp h
  · exact (held_writes (hd hi)).mpr ((held_writes (hd hi)).mp h)
  · exact writes_ca G (ht x hx) (hn x hx) h

theorem top_flag : Writes W M o t false false v b ↔ Writes W M o t (isPtrK (W.E t).kind) false v b := by
  cases hp : isPtrK (W.E t).kind with
  | false => exact Iff.rfl
  | true =>
    have : IsPtr W.E t := by
      revert hp
      cases hk : (W.E t).kind <;> intro hp <;> first | exact ⟨_, hk⟩ | cases hp
    exact ⟨writes_ptr_ca this, writes_ptr_ca this⟩

theorem heldText_iface {R : TId → Val → Bytes → Prop} : HeldText R (.iface t v) b ↔ R t v b :=
  ⟨fun h => by cases h with | value h => exact h, .value⟩

/-- C83: the text of a value is that of an interface that holds it, or a container of interfaces that holds its parts. -/
theorem C83_held (G : GoTypes W.E W.ptrTo) {y : Val} (hl : Generic W o t v y) (ht : HasType W.E t v) :
    Writes W M o t false false v b ↔ HeldText (TopText W M o) y b := by
  have top : ∀ {u x c}, HeldText (TopText W M o) (.iface u x) c ↔ Writes W M o u false false x c := fun {u x c} => heldText_iface.trans top_flag.symm
  induction hl generalizing b with
  | same hb hi =>
    cases hb with
    | held h => exact held_writes (hi h)
    | value h => exact top.symm
  | @held t u x y hd _ ih =>
    have hu : HasType W.E u x := by
      obtain ⟨⟨k, hk⟩, -⟩ := hd
      cases ht with
      | iface _ h => cases h with | val h => exact h
    rw [held_writes hd, top]
    exact ih hu
  | ptrNil hk hb =>
    constructor
    · intro h
      rcases w_ptr hb hk h with ⟨-, rfl⟩ | ⟨_, hv, -⟩
      · exact .nil
      · cases hv
    · intro h
      cases h
      exact .ptrNil hb hk
  | @ptr t e x y hk hb hf hi _ ih =>
    have htx : HasType W.E e x := by
      cases ht with
      | ptr hk2 h => rw [hk] at hk2; cases hk2; exact h
      | iface hk2 _ => rw [hk] at hk2; cases hk2
    have hall : ∀ z ∈ [x], HasType W.E e z := fun z hz => by rw [List.mem_singleton.mp hz]; exact htx
    refine Iff.trans ?_ (ih htx)
    constructor
    · intro h
      rcases w_ptr hb hk h with ⟨hv, -⟩ | ⟨_, hv, h⟩ <;> cases hv
      exact free_writes G hi hf hall (List.mem_singleton.mpr rfl) h
    · intro h
      exact .ptr hb hk (free_writes G hi hf hall (List.mem_singleton.mpr rfl) h)
  | sliceNil hl =>
    obtain ⟨hk, hb, he, hb', e', hk', he'⟩ := hl
    have key : ∀ {t e}, ByKind W.E t false → (W.E t).kind = .slice e → ¬ ByteElem W.E e →
        (Writes W M o t false false .nil b ↔ b = if bmHas o.flags .nilSliceEmpty then b! "[]" else b! "null") := by
      intro t e hb hk he
      constructor
      · intro h
        rcases w_slice hb hk he h with ⟨-, h⟩ | ⟨_, _, h, -⟩
        · exact h
        · cases h
      · rintro rfl
        cases hf : bmHas o.flags .nilSliceEmpty with
        | true => exact .sliceNil0 hb hk he hf
        | false => exact .sliceNil hb hk he hf
    rw [top, key hb hk he, key hb' hk' (dyn_elem he')]
  | @slice t e t' vs ys hl hf hi hlen hx ih =>
    obtain ⟨hk, hb, he, hb', e', hk', he'⟩ := hl
    have htv : ∀ x ∈ vs, HasType W.E e x := by
      cases ht with
      | slice hk2 h => rw [hk] at hk2; cases hk2; exact h
      | iface hk2 _ => rw [hk] at hk2; cases hk2
    rw [top]
    constructor
    · intro h
      rcases w_slice hb hk he h with ⟨hv, -⟩ | ⟨_, bs, hv, rfl, h1, h2⟩ <;> cases hv
      refine .slice hb' hk' (dyn_elem he') (h1.trans hlen.symm) fun i y c hy hc => ?_
      obtain ⟨x, hxi⟩ := elem_beside hlen.symm hy
      have hm := List.mem_of_getElem? hxi
      exact (held_writes he').mpr ((ih i x y hxi hy (htv x hm)).mp (free_writes G hi hf htv hm (h2 i x c hxi hc)))
    · intro h
      rcases w_slice hb' hk' (dyn_elem he') h with ⟨hv, -⟩ | ⟨_, bs, hv, rfl, h1, h2⟩ <;> cases hv
      refine .slice hb hk he (h1.trans hlen) fun i x c hxi hc => ?_
      obtain ⟨y, hy⟩ := elem_beside hlen hxi
      have hm := List.mem_of_getElem? hxi
      exact free_writes G hi hf htv hm ((ih i x y hxi hy (htv x hm)).mpr ((held_writes he').mp (h2 i y c hy hc)))
  | @array t e t' vs ys hl hlen hx ih =>
    obtain ⟨⟨n, hk⟩, hb, he, hb', n', e', hk', he'⟩ := hl
    have htv : ∀ x ∈ vs, HasType W.E e x := by
      cases ht with
      | array hk2 h => rw [hk] at hk2; cases hk2; exact h
      | iface hk2 _ => rw [hk] at hk2; cases hk2
    rw [top]
    constructor
    · intro h
      rcases w_array hb hk h with ⟨_, _, _, -, -, h, -⟩ | ⟨_, bs, hv, rfl, -, h1, h2⟩
      · exact absurd h he
      · cases hv
        refine .array hb' hk' (fun h => absurd h (dyn_elem he')) (h1.trans hlen.symm) fun i y c hy hc => ?_
        obtain ⟨x, hxi⟩ := elem_beside hlen.symm hy
        exact (held_writes he').mpr ((ih i x y hxi hy (htv x (List.mem_of_getElem? hxi))).mp (h2 i x c hxi hc))
    · intro h
      rcases w_array hb' hk' h with ⟨_, _, _, -, -, h, -⟩ | ⟨_, bs, hv, rfl, -, h1, h2⟩
      · exact absurd h (dyn_elem he')
      · cases hv
        refine .array hb hk (fun h => absurd h he) (h1.trans hlen) fun i x c hxi hc => ?_
        obtain ⟨y, hy⟩ := elem_beside hlen hxi
        exact (ih i x y hxi hy (htv x (List.mem_of_getElem? hxi))).mpr ((held_writes he').mp (h2 i y c hy hc))
  | mapNil hl =>
    obtain ⟨hb, hb', k, e', hk, hk', he'⟩ := hl
    have key : ∀ {t k e}, ByKind W.E t false → (W.E t).kind = .map k e →
        (Writes W M o t false false .nil b ↔ KeyType W.E k ∧ b = if bmHas o.flags .nilMapEmpty then b! "{}" else b! "null") := by
      intro t k e hb hk
      constructor
      · intro h
        rcases w_map hb hk h with ⟨h0, ⟨-, h⟩ | ⟨_, _, _, h, -⟩⟩
        · exact ⟨h0, h⟩
        · cases h
      · rintro ⟨h0, rfl⟩
        cases hf : bmHas o.flags .nilMapEmpty with
        | true => exact .mapNil0 hb hk h0 hf
        | false => exact .mapNil hb hk h0 hf
    rw [top, key hb hk, key hb' hk']
  | @map t e t' kvs kvs' hl h1 hx ih =>
    obtain ⟨hb, hb', k, e', hk, hk', he'⟩ := hl
    have htv : ∀ x ∈ kvs, HasType W.E e x.2 := by
      cases ht with
      | map hk2 _ h => rw [hk] at hk2; cases hk2; exact h
      | iface hk2 _ => rw [hk] at hk2; cases hk2
    have hlen : kvs'.length = kvs.length := by simpa using congrArg List.length h1
    have hkey : ∀ (i : Nat) x y, kvs[i]? = some x → kvs'[i]? = some y → y.1 = x.1 := by
      intro i x y hxi hyi
      have e1 := congrArg (·[i]?) h1
      simpa only [List.getElem?_map, hxi, hyi, Option.map_some, Option.some.injEq] using e1
    rw [top]
    constructor
    · intro h
      rcases w_map hb hk h with ⟨h0, ⟨hv, -⟩ | ⟨_, ms, ms', hv, rfl, k1, k2, k3, k4⟩⟩ <;> cases hv
      refine .map hb' hk' h0 (k1.trans hlen.symm) (fun i y m hy hm => ?_) (fun i y m hy hm => ?_) k4
      · obtain ⟨x, hxi⟩ := elem_beside hlen.symm hy
        rw [hkey i x y hxi hy]
        exact k2 i x m hxi hm
      · obtain ⟨x, hxi⟩ := elem_beside hlen.symm hy
        exact (held_writes he').mpr ((ih i x y hxi hy (htv x (List.mem_of_getElem? hxi))).mp (k3 i x m hxi hm))
    · intro h
      rcases w_map hb' hk' h with ⟨h0, ⟨hv, -⟩ | ⟨_, ms, ms', hv, rfl, k1, k2, k3, k4⟩⟩ <;> cases hv
      refine .map hb hk h0 (k1.trans hlen) (fun i x m hxi hm => ?_) (fun i x m hxi hm => ?_) k4
      · obtain ⟨y, hy⟩ := elem_beside hlen hxi
        rw [← hkey i x y hxi hy]
        exact k2 i y m hy hm
      · obtain ⟨y, hy⟩ := elem_beside hlen hxi
        exact (ih i x y hxi hy (htv x (List.mem_of_getElem? hxi))).mpr ((held_writes he').mp (k3 i y m hy hm))
  | @struct t t' v v' shown shown' held hp hp' h1 h2 h3 h4 h5 h6 ih =>
    have like : ∀ (i : Nat) m m', shown[i]? = some m → shown'[i]? = some m' → MemberLike W M o false v v' m m' := by
      intro i m m' hm hm'
      by_cases hh : held m
      · have h := h5 i m m' hm hm' hh
        obtain ⟨⟨x, k1⟩, y, k2⟩ := h.there
        have nb : ¬ BasicOrPtr W.E m'.decl.typ := by
          obtain ⟨k, hk⟩ := h.any.1
          rintro (h | ⟨e, h, -⟩)
          · rw [hk] at h; cases h
          · rw [hk] at h; cases h
        refine ⟨h.name, ⟨fun h' => absurd h'.2 nb, fun h' => absurd h' h.plain⟩,
          fun c => ⟨fun h' => absurd ⟨h'.1, h'.2.1⟩ h.kept', fun h' => absurd ⟨h'.1, h'.2.1⟩ h.kept⟩, x, y, k1, k2, fun q c hq => ?_⟩
        have : q = false := by
          cases q with
          | false => rfl
          | true => exact absurd (hq.mp rfl) h.plain
        subst this
        obtain ⟨l, d1, d2, -⟩ := h1
        rw [held_writes h.any]
        exact ih i m m' x y hm hm' hh k1 k2 (members_part G ht hp.1 ((d1.2 m).mp (d2.subset (List.mem_of_getElem? hm))) k1).1
      · exact same_like (h4 i m m' hm hm' hh)
    rw [top]
    exact ⟨like_writes hp hp' h1 h2 h3 like, like_writes hp' hp h2 h1 h3.symm fun i m' m hm' hm => memberLike_symm (like i m m' hm hm')⟩

/-- C83: the texts are the same. -/
theorem C83_text (G : GoTypes W.E W.ptrTo) {t' : TId} {v' : Val} (hl : Generic W o t v (.iface t' v')) (ht : HasType W.E t v) :
    Writes W M o t (isPtrK (W.E t).kind) false v b ↔ Writes W M o t' (isPtrK (W.E t').kind) false v' b :=
  top_flag.symm.trans ((C83_held G hl ht).trans heldText_iface)

/-- C83: calls for the one and the other both succeed or both fail, and return the same. -/
theorem C83_calls {H : Heap} (D : FaultReady W H M) (DW : WriteReady W H M) (hP : PathFree M) {t' : TId} {v' : Val}
    (hl : Generic W o t v (.iface t' v')) {opts : List (Option Opt)} (ho : prepare opts = .ok o) {w w' : Addr}
    (hx : ReprE W.E H.mem (some (t, w)) (.iface t v)) (hx' : ReprE W.E H.mem (some (t', w')) (.iface t' v'))
    (hf : TimesFine W t v) (hf' : TimesFine W t' v') {n n' : Nat} (hn : marshalOpts W H n (some (t, w)) opts ≠ .nofuel)
    (hn' : marshalOpts W H n' (some (t', w')) opts ≠ .nofuel) (dst : Bytes) :
    ((∃ b, marshalOpts W H n (some (t, w)) opts = .ret (some b) none) ↔ ∃ b, marshalOpts W H n' (some (t', w')) opts = .ret (some b) none) ∧
    (bmHas o.flags .unsortedMap = false → KeysTold W M o t' v' → ∀ b, marshalOpts W H n (some (t, w)) opts = .ret (some b) none →
      marshalOpts W H n' (some (t', w')) opts = .ret (some b) none ∧ appendOpts W H n' dst (some (t', w')) opts = .ret (some (dst ++ b)) none) := by
  have ht : HasType W.E t v := by
    cases repr_inIface hx with
    | val h => exact h
  have key : ∀ b, marshalOpts W H n (some (t, w)) opts = .ret (some b) none → Writes W M o t' (isPtrK (W.E t').kind) false v' b := fun b h =>
    (C83_text DW.ready.types hl ht).mp ((C56_bytes DW hx hf ho).1 b h)
  refine ⟨⟨fun ⟨b, h⟩ => ?_, fun ⟨b, h⟩ => ?_⟩, fun hu hd b h => (C56_complete D DW hP hx' hf' ho (key b h) n' dst hn').2 hu hd⟩
  · obtain ⟨c, hc, -⟩ := (C56_complete D DW hP hx' hf' ho (key b h) n' dst hn').1
    exact ⟨c, hc⟩
  · obtain ⟨c, hc, -⟩ := (C56_complete D DW hP hx hf ho ((C83_text DW.ready.types hl ht).mpr ((C56_bytes DW hx' hf' ho).1 b h)) n [] hn).1
    exact ⟨c, hc⟩

end Jettison.Props
