import Verif.Spec.Compose
import Verif.Props.WritesExact

/-!
# C76: the text of dynamic data is put together from the texts of calls for its parts
-/

namespace Jettison.Props
open Jettison Jettison.Model Jettison.Spec Jettison.Proofs

variable {W : World} {M : MethV} {o : EncOpts} {t : TId} {ca q : Bool} {v : Val} {b : Bytes}

/-- The text of a value that is passed to a call. -/
def TopText (W : World) (M : MethV) (o : EncOpts) (d : TId) (x : Val) (c : Bytes) : Prop := Writes W M o d (isPtrK (W.E d).kind) false x c

theorem held_writes (h : DynType W.E t) : Writes W M o t ca false v b ↔ HeldText (TopText W M o) v b := by
  obtain ⟨⟨k, hk⟩, hb⟩ := h
  have hb' : ByKind W.E t ca := ⟨hb.special, hb.meths, fun _ => hb.pmeths rfl⟩
  constructor
  · intro h
    rcases w_iface hb' hk h with ⟨rfl, rfl⟩ | ⟨d, x, rfl, h1⟩
    · exact .nil
    · exact .value h1
  · intro h
    cases h with
    | nil => exact .ifaceNil hb' hk
    | value h => exact .iface hb' hk h

theorem dyn_elem (h : DynType W.E t) : ¬ ByteElem W.E t := fun hb => by
  obtain ⟨⟨k, hk⟩, -⟩ := h
  rw [hb.1] at hk; cases hk

theorem dyn_plain (h : DynType W.E t) : ¬ BasicOrPtr W.E t := fun hb => by
  obtain ⟨⟨k, hk⟩, -⟩ := h
  rcases hb with hb | ⟨e, hb, -⟩
  · rw [hk] at hb; cases hb
  · rw [hk] at hb; cases hb

theorem dyn_kept (h : DynType W.E t) : ¬ HasMarshalJSON W.E t := fun hm => by
  obtain ⟨⟨k, hk⟩, hb⟩ := h
  rcases hm with hm | hm
  · exact hb.meths (by simp [MethSet.any, hm])
  · exact hb.pmeths rfl (by rw [hk]; rfl) (by simp [MethSet.any, hm])

theorem together_writes (h : Dynamic W t v) : Writes W M o t false false v b ↔ PutTogether W o (TopText W M o) t v b := by
  obtain ⟨hv, hb, hk⟩ := h
  constructor
  · intro h
    rcases hk with ⟨e, hk, he⟩ | ⟨n, e, hk, he⟩ | ⟨k, e, hk, hks, he⟩ | ⟨hs, hd⟩
    · rcases w_slice hb hk (dyn_elem he) h with ⟨rfl, rfl⟩ | ⟨vs, bs, rfl, rfl, h1, h2⟩
      · exact absurd rfl hv
      · exact .slice hk he h1 fun i v b hi hj => (held_writes he).mp (h2 i v b hi hj)
    · rcases w_array hb hk h with ⟨vs, x, c, rfl, rfl, g1, -⟩ | ⟨vs, bs, rfl, rfl, g1, g2, g3⟩
      · exact absurd g1 (dyn_elem he)
      · exact .array hk he g2 fun i v b hi hj => (held_writes he).mp (g3 i v b hi hj)
    · rcases (w_map hb hk h).2 with ⟨rfl, rfl⟩ | ⟨kvs, ms, ms', rfl, rfl, h1, h2, h3, h5⟩
      · exact absurd rfl hv
      · refine .map hk hks he h1 (fun i kv m hi hj => ?_) (fun i kv m hi hj => (held_writes he).mp (h3 i kv m hi hj)) h5
        have := h2 i kv m hi hj
        generalize kv.1 = x at this ⊢
        generalize m.1 = c at this ⊢
        cases this with
        | str _ h => exact ⟨_, _, rfl, h, rfl⟩
        | nilText h | text h | quoted h => exact absurd hks h
    · obtain ⟨l, tried, kept, q', x, c, key, lead, a1, a2, a3, a4, a5, a6, a7, a8, a9, a10, rfl⟩ := w_struct hb hs h
      have hdm : ∀ m ∈ l, DynType W.E m.decl.typ := fun m hm => hd m ((a1.2 m).mp hm)
      have hk : kept = tried := by
        have : ∀ m ∈ tried, m ∈ kept := fun m hm => (a8 m hm).mpr fun h => dyn_kept (hdm m (a2.subset hm)) h.2.1
        exact sublist_unique ((membersOf_nodup a1).sublist a2) a7 (List.Sublist.refl _) fun m hm => by simp [this m hm, hm]
      subst hk
      have hl : lead = [] := lead_unique a10 (.none (.inr rfl))
      subst hl
      refine List.append_nil (b! "{") ▸ .struct hs a1 hdm a2 a3 a4 (fun m hm => ?_) a9
      have h6 := a6 m hm
      have hq : q' m = false := by
        cases h : q' m with
        | false => rfl
        | true => exact absurd ((a5 m hm).mp h).2 (dyn_plain (hdm m (a2.subset hm)))
      rw [hq] at h6
      exact (held_writes (hdm m (a2.subset hm))).mp h6
  · intro h
    cases h with
    | slice hk he h1 h2 => exact .slice hb hk (dyn_elem he) h1 fun i v b hi hj => (held_writes he).mpr (h2 i v b hi hj)
    | array hk he h1 h2 => exact .array hb hk (fun h => absurd h (dyn_elem he)) h1 fun i v b hi hj => (held_writes he).mpr (h2 i v b hi hj)
    | map hk hks he h1 h2 h3 h5 =>
      refine .map hb hk (.inl hks) h1 (fun i kv m hi hj => ?_) (fun i kv m hi hj => (held_writes he).mpr (h3 i kv m hi hj)) h5
      obtain ⟨s, c, e1, e2, e3⟩ := h2 i kv m hi hj
      rw [e1, e3]
      exact .str hks e2
    | @struct _ l shown x c key hs a1 hdm a2 a3 a4 a6 a9 =>
      refine List.append_nil (b! "{") ▸ .struct (q' := fun _ => false) hb hs a1 a2 a3 a4 (fun m hm => ?_) (fun m hm => ?_) (List.Sublist.refl _) (fun m hm => ?_) a9 (.none (.inr rfl))
      · simp [dyn_plain (hdm m (a2.subset hm))]
      · exact (held_writes (hdm m (a2.subset hm))).mpr (a6 m hm)
      · simp only [hm, true_iff]
        exact fun h => dyn_kept (hdm m (a2.subset hm)) h.2.1

theorem held_mono {R R' : TId → Val → Bytes → Prop} (h : ∀ d x c, v = .iface d x → R d x c → R' d x c) (hh : HeldText R v b) : HeldText R' v b := by
  cases hh with
  | nil => exact .nil
  | value h1 => exact .value (h _ _ _ rfl h1)

theorem together_mono (G : GoTypes W.E W.ptrTo) (ht : HasType W.E t v) {R R' : TId → Val → Bytes → Prop}
    (h : ∀ d x c, Within W.E t v d x → R d x c → R' d x c) (hp : PutTogether W o R t v b) : PutTogether W o R' t v b := by
  cases hp with
  | slice hk he h1 h2 =>
    exact .slice hk he h1 fun i v b hi hj => held_mono (fun d x c e => h d x c (.step (.step .refl (.slice hk (List.mem_of_getElem? hi))) (e ▸ .iface))) (h2 i v b hi hj)
  | array hk he h1 h2 =>
    exact .array hk he h1 fun i v b hi hj => held_mono (fun d x c e => h d x c (.step (.step .refl (.array hk (List.mem_of_getElem? hi))) (e ▸ .iface))) (h2 i v b hi hj)
  | map hk hks he h1 h2 h3 h5 =>
    refine .map hk hks he h1 h2 (fun i kv m hi hj => held_mono (fun d x c e => h d x c ?_) (h3 i kv m hi hj)) h5
    have := Part.elem (E := W.E) hk (List.mem_of_getElem? hi)
    rw [e] at this
    exact .step (.step .refl this) .iface
  | struct hs a1 hdm a2 a3 a4 a6 a9 =>
    refine .struct hs a1 hdm a2 a3 a4 (fun m hm => held_mono (fun d x c e => h d x c ?_) (a6 m hm)) a9
    obtain ⟨_, _, _, _, _, hpath, hprom, -⟩ := (a1.2 m).mp (a2.subset hm)
    have hw := (fieldAt_type G (a4 m hm) hs ht (promoted_type hs hprom)).2
    rw [e] at hw
    exact .step hw .iface

/-! ## Calls -/

/-- Calls for the value `x` of type `d`, in whatever memory it is held, return `c`, if they end. -/
def CallsGive (W : World) (M : MethV) (opts : List (Option Opt)) (d : TId) (x : Val) (c : Bytes) : Prop :=
  ∀ (H : Heap) (w : Addr) (n : Nat), FaultReady W H M → WriteReady W H M → ReprE W.E H.mem (some (d, w)) (.iface d x) →
    marshalOpts W H n (some (d, w)) opts ≠ .nofuel → marshalOpts W H n (some (d, w)) opts = .ret (some c) none

/-- Some call for the value `x` of type `d` returns `c`. -/
def CallGave (W : World) (M : MethV) (opts : List (Option Opt)) (d : TId) (x : Val) (c : Bytes) : Prop :=
  ∃ (H : Heap) (w : Addr) (n : Nat), FaultReady W H M ∧ WriteReady W H M ∧ ReprE W.E H.mem (some (d, w)) (.iface d x) ∧
    marshalOpts W H n (some (d, w)) opts = .ret (some c) none

/-- C76: the text that a call returns for dynamic data is put together from the texts that calls for
the values in it return. -/
theorem C76_parts {H : Heap} (D : WriteReady W H M) (hP : PathFree M) {w : Addr} (hx : ReprE W.E H.mem (some (t, w)) (.iface t v))
    (hf : TimesFine W t v) {opts : List (Option Opt)} (ho : prepare opts = .ok o) (hu : bmHas o.flags .unsortedMap = false) (hd : KeysTold W M o t v)
    (hdy : Dynamic W t v) {n : Nat} (h : marshalOpts W H n (some (t, w)) opts = .ret (some b) none) :
    PutTogether W o (CallsGive W M opts) t v b := by
  have ht : HasType W.E t v := by
    cases repr_inIface hx with
    | val h => exact h
  have hp : isPtrK (W.E t).kind = false := by
    obtain ⟨-, -, ⟨e, hk, -⟩ | ⟨n, e, hk, -⟩ | ⟨k, e, hk, -⟩ | ⟨⟨fs, hk⟩, -⟩⟩ := hdy <;> rw [show (W.E t).kind = _ from hk] <;> rfl
  have hw := (C56_bytes D hx hf ho).1 b h
  rw [hp] at hw
  refine together_mono D.ready.types ht (fun d x c hin hr H' w' n' F' D' hx' hn => ?_) ((together_writes hdy).mp hw)
  exact ((C56_complete F' D' hP hx' (fun t' y hy => hf t' y (within_trans hin hy)) ho hr n' [] hn).2 hu (hd.part hin)).1

/-- C76: and if calls for the values in dynamic data return texts, a call for the whole that ends
returns the text that is put together from them. -/
theorem C76_whole {H : Heap} (F : FaultReady W H M) (D : WriteReady W H M) (hP : PathFree M) {w : Addr} (hx : ReprE W.E H.mem (some (t, w)) (.iface t v))
    (hf : TimesFine W t v) {opts : List (Option Opt)} (ho : prepare opts = .ok o) (hu : bmHas o.flags .unsortedMap = false) (hd : KeysTold W M o t v)
    (hdy : Dynamic W t v) (h : PutTogether W o (CallGave W M opts) t v b) {n : Nat} (hn : marshalOpts W H n (some (t, w)) opts ≠ .nofuel) :
    marshalOpts W H n (some (t, w)) opts = .ret (some b) none := by
  have ht : HasType W.E t v := by
    cases repr_inIface hx with
    | val h => exact h
  have hp : isPtrK (W.E t).kind = false := by
    obtain ⟨-, -, ⟨e, hk, -⟩ | ⟨n, e, hk, -⟩ | ⟨k, e, hk, -⟩ | ⟨⟨fs, hk⟩, -⟩⟩ := hdy <;> rw [show (W.E t).kind = _ from hk] <;> rfl
  have hw : Writes W M o t (isPtrK (W.E t).kind) false v b := by
    rw [hp]
    refine (together_writes hdy).mpr (together_mono D.ready.types ht (fun d x c hin ⟨H', w', n', F', D', hx', hr⟩ => ?_) h)
    exact (C56_bytes D' hx' (fun t' y hy => hf t' y (within_trans hin hy)) ho).1 c hr
  exact ((C56_complete F D hP hx hf ho hw n [] hn).2 hu hd).1

end Jettison.Props
