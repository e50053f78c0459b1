import Verif.Props.ComposeEx
import Verif.Props.First

/-! # C76: the errors of dynamic data are those of calls for its parts -/

namespace Jettison.Props
open Jettison Jettison.Model Jettison.Spec Jettison.Proofs

variable {W : World} {M : MethV} {o : EncOpts} {t : TId} {ca q : Bool} {v : Val} {b : Bytes} {r : Option Err}

theorem byKind_dyn (h : ByKind W.E t true) : ByKind W.E t ca := ⟨h.special, h.meths, fun _ => h.pmeths rfl⟩

/-- A value of kind other than floats and those that cannot be encoded is not at fault itself. -/
theorem fault_byKind {e : Err} (hb : ByKind W.E t ca) (hk : ∀ w, (W.E t).kind ≠ .float w) (ho : (W.E t).kind ≠ .other)
    (hm : ∀ k e, (W.E t).kind = .map k e → KeyType W.E k) : ¬ Fault W M o t ca v e := by
  intro h
  cases h with
  | float _ h => exact hk _ h
  | typ _ h =>
    rcases h with h | ⟨k, e, h, hn⟩
    · exact ho h
    · exact hn (hm _ _ h)
  | method _ h => exact picks_byKind h hb
  | malformed _ h => exact picks_byKind h hb
  | seconds h | minutes h | number h | time h | nilKey h | badKey h => rw [hb.special] at h; cases h

theorem first_iface (h : DynType W.E t) (hf : First W M o t ca v r) : ∃ d x, v = .iface d x ∧ First W M o d (isPtrK (W.E d).kind) x r := by
  obtain ⟨⟨k, hk⟩, hb⟩ := h
  have hb' : ByKind W.E t ca := byKind_dyn hb
  cases hf with
  | fault _ h => exact absurd h (fault_byKind hb' (by simp [hk]) (by simp [hk]) (by simp [hk]))
  | method _ h => exact (picks_byKind h hb').elim
  | ptr _ h | slice _ h | array _ h | key _ h | short _ h | elem _ h => rw [hk] at h; cases h
  | field _ h => obtain ⟨fs, h⟩ := h; unfold HasFields at h; rw [hk] at h; cases h
  | nilKey h | badKey h | skey h | sshort h | nilElem h | selem h => rw [hb.special] at h; cases h
  | iface _ _ h => exact ⟨_, _, rfl, h⟩

theorem first_dynamic (h : Dynamic W t v) (hf : First W M o t false v r) : ∃ d x, KeepsValue W o t v d x ∧ First W M o d (isPtrK (W.E d).kind) x r := by
  obtain ⟨-, hb, hk⟩ := h
  have hnf : ∀ e, ¬ Fault W M o t false v e := by
    intro e
    rcases hk with ⟨e, hk, -⟩ | ⟨n, e, hk, -⟩ | ⟨k, e, hk, hks, -⟩ | ⟨⟨fs, hk⟩, -⟩
    · exact fault_byKind hb (by simp [hk]) (by simp [hk]) (by simp [hk])
    · exact fault_byKind hb (by simp [hk]) (by simp [hk]) (by simp [hk])
    · refine fault_byKind hb (by simp [hk]) (by simp [hk]) fun k' e' h => ?_
      rw [hk] at h; cases h; exact .inl hks
    · unfold HasFields at hk
      exact fault_byKind hb (by simp [hk]) (by simp [hk]) (by simp [hk])
  cases hf with
  | fault _ h => exact absurd h (hnf _)
  | method _ h => exact (picks_byKind h hb).elim
  | nilKey h | badKey h | skey h | sshort h | nilElem h | selem h => rw [hb.special] at h; cases h
  | ptr _ h =>
    rcases hk with ⟨e, hk, -⟩ | ⟨n, e, hk, -⟩ | ⟨k, e, hk, hks, -⟩ | ⟨⟨fs, hk⟩, -⟩ <;> (try unfold HasFields at hk) <;> (rw [hk] at h; cases h)
  | iface _ h =>
    rcases hk with ⟨e, hk, -⟩ | ⟨n, e, hk, -⟩ | ⟨k, e, hk, hks, -⟩ | ⟨⟨fs, hk⟩, -⟩ <;> (try unfold HasFields at hk) <;> (rw [hk] at h; cases h)
  | slice _ h _ hv _ h' =>
    rcases hk with ⟨e, hk, he⟩ | ⟨n, e, hk, -⟩ | ⟨k, e, hk, hks, -⟩ | ⟨⟨fs, hk⟩, -⟩ <;> (try unfold HasFields at hk) <;> (rw [h] at hk; cases hk)
    obtain ⟨d, x, rfl, h2⟩ := first_iface he h'
    exact ⟨d, x, .slice h (by simp [hv]), h2⟩
  | array _ h _ hv _ h' =>
    rcases hk with ⟨e, hk, he⟩ | ⟨n, e, hk, he⟩ | ⟨k, e, hk, hks, -⟩ | ⟨⟨fs, hk⟩, -⟩ <;> (try unfold HasFields at hk) <;> (rw [h] at hk; cases hk)
    obtain ⟨d, x, rfl, h2⟩ := first_iface he h'
    exact ⟨d, x, .array h (by simp [hv]), h2⟩
  | @field _ _ _ _ _ m _ _ _ _ h hl hv _ hlo hfa h' =>
    rcases hk with ⟨e, hk, he⟩ | ⟨n, e, hk, he⟩ | ⟨k, e, hk, hks, -⟩ | ⟨-, hd⟩
    iterate 3 (obtain ⟨fs, h⟩ := h; unfold HasFields at h; rw [h] at hk; cases hk)
    have hc := (hl.2 m).mp (by simp [hv])
    obtain ⟨d, x, rfl, h2⟩ := first_iface (hd _ hc) h'
    exact ⟨d, x, .field h hc hlo hfa, h2⟩
  | key _ h _ hn =>
    rcases hk with ⟨e, hk, he⟩ | ⟨n, e, hk, he⟩ | ⟨k, e, hk, hks, -⟩ | ⟨⟨fs, hk⟩, -⟩ <;> (try unfold HasFields at hk) <;> (rw [h] at hk; cases hk)
    exact absurd hks hn
  | short _ h hn =>
    rcases hk with ⟨e, hk, he⟩ | ⟨n, e, hk, he⟩ | ⟨k, e, hk, hks, -⟩ | ⟨⟨fs, hk⟩, -⟩ <;> (try unfold HasFields at hk) <;> (rw [h] at hk; cases hk)
    exact absurd hks hn
  | @elem _ _ _ _ kvs kv _ _ h _ hm _ h' =>
    rcases hk with ⟨e, hk, he⟩ | ⟨n, e, hk, he⟩ | ⟨k, e, hk, hks, he⟩ | ⟨⟨fs, hk⟩, -⟩ <;> (try unfold HasFields at hk) <;> (rw [h] at hk; cases hk)
    obtain ⟨d, x, hx, h2⟩ := first_iface he h'
    exact ⟨d, x, .map (key := kv.1) h (by rw [← hx]; exact hm), h2⟩

/-- A call for the value `x` of type `d`, in whatever memory it is held, does not succeed if it ends;
its result is `r`, if no map in the value has two entries at fault. -/
def CallsFail (W : World) (M : MethV) (o : EncOpts) (opts : List (Option Opt)) (d : TId) (x : Val) (r : Ret) : Prop :=
  ∀ (H : Heap) (w : Addr) (n : Nat), FaultReady W H M → ReprE W.E H.mem (some (d, w)) (.iface d x) → marshalOpts W H n (some (d, w)) opts ≠ .nofuel →
    (∀ c, marshalOpts W H n (some (d, w)) opts ≠ .ret c none) ∧
    (OneEntry W M o d (isPtrK (W.E d).kind) x → marshalOpts W H n (some (d, w)) opts = r)

theorem calls_fail {d : TId} {x : Val} (hP : PathFree M) {opts : List (Option Opt)} (ho : prepare opts = .ok o) :
    (∀ e, First W M o d (isPtrK (W.E d).kind) x (some e) → CallsFail W M o opts d x (.ret none (some (.encoding e)))) ∧
    (First W M o d (isPtrK (W.E d).kind) x none → CallsFail W M o opts d x .panic) := by
  have key : ∀ {r}, First W M o d (isPtrK (W.E d).kind) x r → ∀ (H : Heap) (w : Addr) (n : Nat), FaultReady W H M →
      ReprE W.E H.mem (some (d, w)) (.iface d x) → ∀ c, marshalOpts W H n (some (d, w)) opts ≠ .ret c none :=
    fun hf H w n F hx c hc => first_blame hf (C51_noticed F hP hx ho n [] (.inl ⟨c, hc⟩))
  exact ⟨fun e hf H w n F hx hn => ⟨key hf H w n F hx, fun h1 => ((C58_exact F hP hx ho n [] hn h1).1 e hf).1⟩,
    fun hf H w n F hx hn => ⟨key hf H w n F hx, fun h1 => ((C58_exact F hP hx ho n [] hn h1).2 hf).1⟩⟩

/-- C76: if a call for dynamic data fails or panics, so do the calls for one of the values in it. -/
theorem C76_error {H : Heap} (F : FaultReady W H M) (hP : PathFree M) {w : Addr} (hx : ReprE W.E H.mem (some (t, w)) (.iface t v))
    {opts : List (Option Opt)} (ho : prepare opts = .ok o) (hdy : Dynamic W t v) {n : Nat} :
    (∀ r e, marshalOpts W H n (some (t, w)) opts = .ret r (some (.encoding e)) →
      ∃ d x, KeepsValue W o t v d x ∧ CallsFail W M o opts d x (.ret none (some (.encoding e)))) ∧
    (marshalOpts W H n (some (t, w)) opts = .panic → ∃ d x, KeepsValue W o t v d x ∧ CallsFail W M o opts d x .panic) := by
  have hp : isPtrK (W.E t).kind = false := by
    obtain ⟨-, -, ⟨e, hk, -⟩ | ⟨n, e, hk, -⟩ | ⟨k, e, hk, -⟩ | ⟨⟨fs, hk⟩, -⟩⟩ := hdy <;> rw [show (W.E t).kind = _ from hk] <;> rfl
  constructor
  · intro r e h
    have hf := C58_error F hP hx ho n [] (.inl ⟨r, h⟩)
    rw [hp] at hf
    obtain ⟨d, x, h1, h2⟩ := first_dynamic hdy hf
    exact ⟨d, x, h1, (calls_fail hP ho).1 e h2⟩
  · intro h
    have hf := C58_panic F hP hx ho n [] (.inl h)
    rw [hp] at hf
    obtain ⟨d, x, h1, h2⟩ := first_dynamic hdy hf
    exact ⟨d, x, h1, (calls_fail hP ho).2 h2⟩

/-- A `map[string]interface{}` with an `Item` and a `[]Loud` that fails. -/
def badBoxCells : List (Addr × Cell) :=
  [(100, .hmap [(110, 120), (140, 150)]), (110, .str (b! "b")), (140, .str (b! "a")),
   (120, .eface (some (4, 400))), (150, .eface (some (46, 500))),
   (400, .str (b! "tea")), (416, .int (.int 0)), (424, .word 0), (432, .str (b! "x")), (448, .int (.int 12)),
   (500, .slice 520 2), (520, .str (b! "loud")), (536, .str (b! "fail"))]

def badBoxV : Val := .map [(.str (b! "b"), .iface 4 itemV), (.str (b! "a"), .iface 46 (.slice [.str (b! "loud"), .str (b! "fail")]))]

/-- The hypotheses of `C76_error`. -/
example : ∃ d x, KeepsValue shopW defaultEncOpts 60 badBoxV d x ∧
    CallsFail shopW (univM shopMeth) defaultEncOpts [] d x (.ret none (some (.encoding (.marshaler 22 .json (.user 3))))) :=
  (C76_error (opts := []) (shop_faults badBoxCells) shop_pathFree (w := 100) (shop_holds 8 (by decide +kernel)) rfl
    ⟨by simp [badBoxV], byKind_of (by decide +kernel), .inr (.inr (.inl ⟨2, 10, rfl, rfl, ⟨0, rfl⟩, byKind_of (by decide +kernel)⟩))⟩ (n := 9)).1 none _ (by decide +kernel)

end Jettison.Props
