import Verif.Proofs.Scope
import Verif.Props.Api
import Verif.Props.Shop

/-!
# An option changes nothing but the values it is about (C50)
-/

namespace Jettison.Proofs
open Jettison Jettison.Spec Jettison.Model

theorem bmSet_comm (b : UInt64) (f g : Flag) : bmSet (bmSet b f) g = bmSet (bmSet b g) f := by
  simp only [bmSet]
  rw [← UInt64.toBitVec_inj]
  simp only [UInt64.toBitVec_or]
  rw [BitVec.or_assoc, BitVec.or_comm f.mask.toBitVec, BitVec.or_assoc]

theorem run_comm (x y : Opt) (o : EncOpts) : y.run (x.run o) = y.run o ∨ y.run (x.run o) = x.run (y.run o) := by
  cases x <;> cases y <;> first | exact .inl rfl | exact .inr rfl | skip
  exact .inr (by simp only [Opt.run, bmSet_comm])

theorem apply_comm (x : Opt) : ∀ (l : List (Option Opt)) (o : EncOpts), (x.run o).apply l = o.apply l ∨ (x.run o).apply l = x.run (o.apply l)
  | [], _ => .inr rfl
  | none :: l, o => apply_comm x l o
  | some y :: l, o => by
    simp only [EncOpts.apply]
    rcases run_comm x y o with h | h
    · rw [h]; exact .inl rfl
    · rw [h]; exact apply_comm x l _

theorem prepare_ok {l : List (Option Opt)} {o : EncOpts} (h : prepare l = .ok o) : o = defaultEncOpts.apply l := by
  unfold prepare at h
  split at h
  · dsimp only at h
    split at h <;> simp at h
    exact h.symm
  · next hl =>
    have : l = [] := by
      cases l with
      | nil => rfl
      | cons => simp at hl
    subst this
    simp only [EncOpts.apply]
    simpa using h.symm

theorem prepare_insert {l l' : List (Option Opt)} {x : Opt} {o o' : EncOpts} (h : prepare (l ++ l') = .ok o) (h' : prepare (l ++ some x :: l') = .ok o') :
    o' = o ∨ o' = x.run o := by
  rw [prepare_ok h, prepare_ok h', apply_append, apply_append]
  exact apply_comm x l' _

theorem appendJSON_scope {W : World} {H : Heap} {M : MethV} {x : Opt} {o : EncOpts} (R : Ready W H M) {t : TId} {w : Addr} {v : Val}
    (h : ReprE W.E H.mem (some (t, w)) (.iface t v)) (hu : Untouched W.E x t v) (n : Nat) (path : Path) (dst : Bytes) :
    appendJSON W (run W H (x.run o) n) path (some (t, w)) dst = appendJSON W (run W H o n) path (some (t, w)) dst := by
  rw [appendJSON_eq (run_agrees R n).2 h, appendJSON_eq (run_agrees R n).2 h]
  obtain ⟨pt, G⟩ : ∃ pt, GoTypes W.E pt := ⟨_, R.types⟩
  have hv : HasType W.E t v := by
    cases repr_inIface h with
    | val h => exact h
  simp only [appendJSONV]
  cases hi : instrFor W.E W.tfuel t with
  | none => rfl
  | some i =>
    exact runV_parts (Good := Untouched W.E x) G (fun _ _ _ _ h hp => untouched_part h hp)
      (fun t ca i v rec path dst hty hv hu => execV_scope G hty hv hu path dst) n (instrFor_typedI hi) hv hu path dst

end Jettison.Proofs

namespace Jettison.Props
open Jettison Jettison.Spec Jettison.Model Jettison.Proofs

variable {W : World} {H : Heap} {M : MethV}

/-- C50: an option is without effect on a value if neither the value nor any part of
it, at any depth, is of the sort the option is about. -/
theorem C50_option_scope (R : Ready W H M) {t : TId} {w : Addr} {v : Val} (h : ReprE W.E H.mem (some (t, w)) (.iface t v))
    {x : Opt} (hu : ∀ t' v', Within W.E t v t' v' → ¬ Touched W.E x t' v') (l l' : List (Option Opt)) (n : Nat) (dst : Bytes)
    (hok : ∀ r e, marshalOpts W H n (some (t, w)) (l ++ some x :: l') ≠ .ret r (some (.invalidOption e)))
    (hok' : ∀ r e, marshalOpts W H n (some (t, w)) (l ++ l') ≠ .ret r (some (.invalidOption e))) :
    marshalOpts W H n (some (t, w)) (l ++ some x :: l') = marshalOpts W H n (some (t, w)) (l ++ l') ∧
    appendOpts W H n dst (some (t, w)) (l ++ some x :: l') = appendOpts W H n dst (some (t, w)) (l ++ l') := by
  simp only [marshalOpts] at hok hok'
  simp only [marshalOpts, appendOpts]
  cases h1 : prepare (l ++ some x :: l') with
  | error e => rw [h1] at hok; exact absurd rfl (hok none e)
  | ok o' =>
    cases h2 : prepare (l ++ l') with
    | error e => rw [h2] at hok'; exact absurd rfl (hok' none e)
    | ok o =>
      rcases prepare_insert h2 h1 with rfl | rfl
      · exact ⟨rfl, rfl⟩
      · simp only [marshalJSON, appendTop, appendJSON_scope R h hu, and_self]

/-! ## Example -/

/-- The immediate parts of a value. -/
def partsOf (E : Env) (t : TId) : Val → List (TId × Val)
  | .ptr v => match (E t).kind with | .ptr e => [(e, v)] | _ => []
  | .slice vs => match (E t).kind with | .slice e => vs.map (e, ·) | _ => []
  | .array vs => match (E t).kind with | .array _ e => vs.map (e, ·) | _ => []
  | .map kvs => match (E t).kind with | .map k e => kvs.map (k, ·.1) ++ kvs.map (e, ·.2) | _ => []
  | .struct vs => match (E t).kind with | .struct fs => (fs.map (·.typ)).zip vs | _ => []
  | .iface d v => [(d, v)]
  | .smap kvs => (kvs.map (·.1) ++ kvs.map (·.2)).flatMap fun x => match x with | .iface d v => [(d, v)] | _ => []
  | _ => []

theorem part_mem {E : Env} {t t' : TId} {v v' : Val} (h : Part E t v t' v') : (t', v') ∈ partsOf E t v := by
  cases h with
  | ptr hk => simp [partsOf, hk]
  | slice hk hm => simp [partsOf, hk, hm]
  | array hk hm => simp [partsOf, hk, hm]
  | key hk hm =>
    simp only [partsOf, hk, List.mem_append, List.mem_map]
    exact .inl ⟨_, hm, rfl⟩
  | elem hk hm =>
    simp only [partsOf, hk, List.mem_append, List.mem_map]
    exact .inr ⟨_, hm, rfl⟩
  | @field fs vs f v i hk hf hv =>
    simp only [partsOf, hk]
    refine List.mem_of_getElem? (i := i) ?_
    simp [List.getElem?_zip_eq_some, hf, hv]
  | iface => simp [partsOf]
  | skey hm hk =>
    simp only [partsOf, List.mem_flatMap, List.mem_append, List.mem_map]
    exact ⟨_, .inl ⟨_, hm, rfl⟩, by simp [hk]⟩
  | selem hm hk =>
    simp only [partsOf, List.mem_flatMap, List.mem_append, List.mem_map]
    exact ⟨_, .inr ⟨_, hm, rfl⟩, by simp [hk]⟩

/-- A test on a value and all its parts. -/
def allParts (E : Env) (P : TId → Val → Bool) : Nat → TId → Val → Bool
  | 0, _, _ => false
  | n + 1, t, v => P t v && (partsOf E t v).all fun x => allParts E P n x.1 x.2

theorem allParts_within {E : Env} {P : TId → Val → Bool} {n : Nat} {t t' : TId} {v v' : Val} (h : allParts E P n t v = true)
    (hw : Within E t v t' v') : P t' v' = true := by
  have : ∃ m, allParts E P m t' v' = true := by
    induction hw with
    | refl => exact ⟨n, h⟩
    | step _ hp ih =>
      obtain ⟨m, hm⟩ := ih
      cases m with
      | zero => simp [allParts] at hm
      | succ m =>
        simp only [allParts, Bool.and_eq_true, List.all_eq_true] at hm
        exact ⟨m, hm.2 _ (part_mem hp)⟩
  obtain ⟨m, hm⟩ := this
  cases m with
  | zero => simp [allParts] at hm
  | succ m => simp only [allParts, Bool.and_eq_true] at hm; exact hm.1

/-- The value is nil and its type is a slice type. -/
def nilSliceB (E : Env) (t : TId) (v : Val) : Bool :=
  match v, (E t).kind with | .nil, .slice _ => true | _, _ => false

example : marshalOpts shopW (shopH shopCells) 9 (some (42, 100)) ([some (.flag .unixTime)] ++ some (.flag .nilSliceEmpty) :: []) =
    marshalOpts shopW (shopH shopCells) 9 (some (42, 100)) ([some (.flag .unixTime)] ++ []) := by
  refine (C50_option_scope (shop_ready shopCells) (v := fullV) (shop_holds 6 (by decide +kernel)) ?_ [some (.flag .unixTime)] [] 9 [] ?_ ?_).1
  · intro t' v' hw ht
    obtain ⟨rfl, e, he⟩ := ht
    have := allParts_within (P := fun t v => !nilSliceB shopW.E t v) (n := 6) (by decide +kernel) hw
    simp [nilSliceB, he] at this
  · intro r e h
    have : marshalOpts shopW (shopH shopCells) 9 (some (42, 100)) ([some (.flag .unixTime)] ++ some (.flag .nilSliceEmpty) :: []) =
      .ret (some (b! "{\"id\":9,\"when\":1000000000,\"Name\":\"base\",\"L\":[[1,2],[1,2]],\"M\":{\"k\":4},\"A\":[1,2,3],\"Any\":6,\"P\":{\"N\":5}}")) none := by
      decide +kernel
    rw [this] at h; simp at h
  · intro r e h
    have : marshalOpts shopW (shopH shopCells) 9 (some (42, 100)) ([some (.flag .unixTime)] ++ []) =
      .ret (some (b! "{\"id\":9,\"when\":1000000000,\"Name\":\"base\",\"L\":[[1,2],[1,2]],\"M\":{\"k\":4},\"A\":[1,2,3],\"Any\":6,\"P\":{\"N\":5}}")) none := by
      decide +kernel
    rw [this] at h; simp at h

end Jettison.Props
