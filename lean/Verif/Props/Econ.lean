import Verif.Proofs.Econ
import Verif.Props.Races

/-!
# How often types are prepared (C70)

As in `Concurrent`, about any number of goroutines and any schedule.
-/

namespace Jettison.Props
open Jettison Jettison.Spec Jettison.Model Jettison.Proofs

variable {W : World} {g n : Nat} {C C' : Conf}

/-- The struct types, with the way they are reached, for which an instruction was promised. -/
def promised (σ : Shared) : List (TId × Bool) := σ.structs.filterMap fun x => match x.2 with | .placeholder _ => some x.1 | .closure _ => none

theorem sum_set : ∀ (l : List Nat) (i x y : Nat), l[i]? = some y → (l.set i x).sum + y = l.sum + x
  | [], _, _, _, h => by simp at h
  | a :: l, 0, x, y, h => by
    simp only [List.getElem?_cons_zero, Option.some.injEq] at h
    subst h
    simp only [List.set_cons_zero, List.sum_cons]; omega
  | a :: l, i + 1, x, y, h => by
    simp only [List.getElem?_cons_succ] at h
    have := sum_set l i x y h
    simp only [List.set_cons_succ, List.sum_cons]; omega

/-- What is owed by the goroutines, and what has been made. -/
structure Thrifty (E : Env) (C : Conf) (ds : List Debt) : Prop where
  len : ds.length = C.thr.length
  neat : ∀ (i : Nat) (T : Thread) (d : Debt), C.thr[i]? = some T → ds[i]? = some d → Neat E ⟨0, none⟩ d T.prog
  made : C.sh.closures.length + (ds.map (·.owed)).sum ≤ C.sh.slots.length
  slots : (promised C.sh).length = C.sh.slots.length
  nodup : (promised C.sh).Nodup
  structs : ∀ k ∈ promised C.sh, IsStruct E k.1

theorem assoc_none {κ α : Type} [DecidableEq κ] {k : κ} : ∀ {l : List (κ × α)}, assoc k l = none → ∀ a, (k, a) ∉ l
  | [], _, _ => by simp
  | (k', a') :: l, h, a => by
    unfold assoc at h
    split at h
    · cases h
    · next hne =>
      intro hm
      rcases List.mem_cons.mp hm with e | hm
      · cases e; exact hne rfl
      · exact assoc_none h a hm

theorem promised_mem {σ : Shared} {k : TId × Bool} : k ∈ promised σ ↔ ∃ c, (k, Ref.placeholder c) ∈ σ.structs := by
  simp only [promised, List.mem_filterMap]
  constructor
  · rintro ⟨⟨k', r⟩, hm, hr⟩
    cases r with
    | placeholder c => cases hr; exact ⟨c, hm⟩
    | closure f => cases hr
  · rintro ⟨c, hm⟩; exact ⟨_, hm, rfl⟩

/-- The struct types promised and the instructions made are as before. -/
structure SameMade (σ σ' : Shared) : Prop where
  structs : promised σ' = promised σ
  slots : σ'.slots.length = σ.slots.length
  closures : σ'.closures.length = σ.closures.length

theorem thrifty_op {E : Env} {ds : List Debt} (h : Thrifty E C ds) {i : Nat} (hs : OStep i C C') : ∃ ds', Thrifty E C' ds' := by
  cases hs with
  | mk hi hst =>
    rename_i c o k held inner σ x
    have hlt : i < C.thr.length := (List.getElem?_eq_some_iff.mp hi).1
    obtain ⟨d, hd⟩ : ∃ d, ds[i]? = some d := ⟨_, List.getElem?_eq_getElem (by rw [h.len]; exact hlt)⟩
    have hn : OpNeat E d o _ := h.neat i _ d hi hd
    have keep : ∀ d', Neat E ⟨0, none⟩ d' (k x) → ∀ (j : Nat) (T : Thread) (e : Debt), (C.thr.set i ⟨c, k x, heldAfter o x held, inner⟩)[j]? = some T → (ds.set i d')[j]? = some e →
        Neat E ⟨0, none⟩ e T.prog := by
      intro d' hd' j T e hj he
      by_cases hji : i = j
      · subst hji
        rw [List.getElem?_set_self hlt] at hj
        rw [List.getElem?_set_self (by rw [h.len]; exact hlt)] at he
        cases hj; cases he; exact hd'
      · rw [List.getElem?_set_ne hji] at hj he
        exact h.neat j T e hj he
    have sums : ∀ d' : Debt, ((ds.set i d').map (·.owed)).sum + d.owed = (ds.map (·.owed)).sum + d'.owed := by
      intro d'
      rw [List.map_set]
      exact sum_set _ i _ _ (by rw [List.getElem?_map, hd]; rfl)
    have idle : ∀ d', Neat E ⟨0, none⟩ d' (k x) → d'.owed = d.owed → SameMade C.sh σ → ∃ ds', Thrifty E ⟨σ, C.thr.set i ⟨c, k x, heldAfter o x held, inner⟩⟩ ds' := by
      intro d' hd' ho hm
      refine ⟨ds.set i d', by simp [h.len], keep d' hd', ?_, ?_, ?_, ?_⟩
      · show σ.closures.length + _ ≤ σ.slots.length
        rw [hm.closures, hm.slots]
        have := h.made
        have := sums d'
        omega
      · show (promised σ).length = σ.slots.length
        rw [hm.structs, hm.slots]; exact h.slots
      · show (promised σ).Nodup
        rw [hm.structs]; exact h.nodup
      · show ∀ k ∈ promised σ, _
        rw [hm.structs]; exact h.structs
    cases o with
    | loadOrStore key =>
      obtain ⟨h0, h1, h2, h3⟩ := hn
      simp only [Op.step] at hst
      cases ha : assoc key C.sh.structs with
      | some r =>
        rw [ha] at hst
        obtain ⟨rfl, rfl⟩ := hst
        exact idle d (h2 r) rfl ⟨rfl, rfl, rfl⟩
      | none =>
        rw [ha] at hst
        obtain ⟨rfl, rfl⟩ := hst
        refine ⟨ds.set i ⟨d.owed + 1, none⟩, by simp [h.len], keep _ (h3 _), ?_, ?_, ?_, ?_⟩
        · have := h.made
          have := sums ⟨d.owed + 1, none⟩
          simp only [List.length_append, List.length_singleton] at *
          omega
        · show (promised C.sh).length + 1 = (C.sh.slots ++ [_]).length
          rw [h.slots]; simp
        · refine List.nodup_cons.mpr ⟨?_, h.nodup⟩
          intro hm
          obtain ⟨c', hc'⟩ := promised_mem.mp hm
          exact assoc_none ha _ hc'
        · intro k' hk'
          rcases List.mem_cons.mp hk' with rfl | hk'
          · exact h1
          · exact h.structs k' hk'
    | newClosure l =>
      obtain ⟨h0, m, h1, h2⟩ := hn
      obtain ⟨rfl, rfl⟩ := hst
      refine ⟨ds.set i ⟨m, none⟩, by simp [h.len], keep _ (h2 _), ?_, h.slots, h.nodup, h.structs⟩
      have := h.made
      have := sums ⟨m, none⟩
      simp only [List.length_append, List.length_singleton] at *
      omega
    | loadCache => obtain ⟨rfl, rfl⟩ := hst; exact idle _ (hn.2 _) rfl ⟨rfl, rfl, rfl⟩
    | storeCache m => cases hst; exact idle _ hn.2 rfl ⟨rfl, rfl, rfl⟩
    | setIns p f => obtain ⟨s, -, rfl⟩ := hst; exact idle _ (hn.2 _) rfl ⟨rfl, by simp, rfl⟩
    | done p => obtain ⟨s, -, rfl⟩ := hst; exact idle _ (hn.2 _) rfl ⟨rfl, by simp, rfl⟩
    | storeStruct key f => cases hst; exact idle _ (hn.2 _) rfl ⟨rfl, rfl, rfl⟩
    | addFields t l =>
      simp only [Op.step] at hst
      split at hst <;> (obtain ⟨rfl, -⟩ := hst; exact idle _ (hn.2 _) rfl ⟨rfl, rfl, rfl⟩)
    | addEmpty t l =>
      simp only [Op.step] at hst
      split at hst <;> (obtain ⟨rfl, -⟩ := hst; exact idle _ (hn.2 _) rfl ⟨rfl, rfl, rfl⟩)
    | scratch s => obtain ⟨_, _, -, -, -, -, rfl, -⟩ := hst; exact idle _ (hn.2 _) rfl ⟨rfl, rfl, rfl⟩
    | write s b => obtain ⟨_, -, ⟨_, -, -, -, -, rfl⟩ | ⟨_, _, -, -, -, -, -, rfl⟩⟩ := hst <;> exact idle _ (hn.2 _) rfl ⟨rfl, rfl, rfl⟩
    | alloc b => obtain ⟨_, rfl, -⟩ := hst; exact idle _ (hn.2 _) rfl ⟨rfl, rfl, rfl⟩
    | get P => rcases hst with ⟨-, rfl⟩ | ⟨_, _, -, rfl, -⟩ <;> exact idle _ (hn.2 _) rfl ⟨rfl, rfl, rfl⟩
    | store id v => obtain ⟨-, rfl⟩ := hst; exact idle _ (hn.2 _) rfl ⟨rfl, rfl, rfl⟩
    | put P id => cases hst; exact idle _ (hn.2 _) rfl ⟨rfl, rfl, rfl⟩
    | back m c l out => cases hst; exact idle _ (hn.2 _) rfl ⟨rfl, rfl, rfl⟩
    | _ => obtain ⟨rfl, -⟩ := hst; exact idle _ (hn.2 _) rfl ⟨rfl, rfl, rfl⟩

theorem thrifty_new {E : Env} {ds : List Debt} (h : Thrifty E C ds) {σ : Shared} (hm : SameMade C.sh σ) {T : Thread} (hT : Even E T.prog) : Thrifty E ⟨σ, C.thr ++ [T]⟩ (ds ++ [⟨0, none⟩]) where
  len := by simp [h.len]
  neat i T' d hi hd := by
    by_cases hlt : i < C.thr.length
    · rw [List.getElem?_append_left hlt] at hi
      rw [List.getElem?_append_left (by rw [h.len]; exact hlt)] at hd
      exact h.neat i T' d hi hd
    · rw [List.getElem?_append_right (by omega)] at hi
      rw [List.getElem?_append_right (by rw [h.len]; omega), h.len] at hd
      have : i - C.thr.length = 0 := by have := (List.getElem?_eq_some_iff.mp hi).1; simp at this; omega
      rw [this] at hi hd
      cases hi; cases hd
      exact hT 0
  made := by
    show σ.closures.length + _ ≤ σ.slots.length
    rw [hm.closures, hm.slots]
    simpa using h.made
  slots := by show (promised σ).length = σ.slots.length; rw [hm.structs, hm.slots]; exact h.slots
  nodup := by show (promised σ).Nodup; rw [hm.structs]; exact h.nodup
  structs := by show ∀ k ∈ promised σ, _; rw [hm.structs]; exact h.structs

theorem thrifty_inner {E : Env} {ds : List Debt} (h : Thrifty E C ds) {σ : Shared} (hm : SameMade C.sh σ) {i : Nat} {T : Thread} (hi : C.thr[i]? = some T) {s : Sl} {k : Bytes → Prog Out}
    (hp : T.prog = .op (.scratch s) k) {m : Nat} {c : Call} {p : Prog Out} (he : Even E p) : Thrifty E ⟨σ, C.thr.set i (T.during m c p s k)⟩ ds where
  len := by simp [h.len]
  neat j T' d hj hd := by
    by_cases hji : i = j
    · subst hji
      have hlt : i < C.thr.length := (List.getElem?_eq_some_iff.mp hi).1
      rw [List.getElem?_set_self hlt] at hj
      cases hj
      have hn := h.neat i T d hi hd
      rw [hp] at hn
      obtain ⟨h0, h1⟩ : OpNeat E d (.scratch s) _ := hn
      obtain ⟨w, cp⟩ := d
      cases h0
      exact neat_bind (f := fun out => .op (.back m c T.held out) fun _ => .op (.scratch s) k) (fun out => ⟨rfl, fun _ => ⟨rfl, h1⟩⟩) (he w)
    · rw [List.getElem?_set_ne hji] at hj
      exact h.neat j T' d hj hd
  made := by show σ.closures.length + _ ≤ σ.slots.length; rw [hm.closures, hm.slots]; exact h.made
  slots := by show (promised σ).length = σ.slots.length; rw [hm.structs, hm.slots]; exact h.slots
  nodup := by show (promised σ).Nodup; rw [hm.structs]; exact h.nodup
  structs := by show ∀ k ∈ promised σ, _; rw [hm.structs]; exact h.structs

theorem thrifty_step {ds : List Debt} (h : Thrifty W.E C ds) (hs : CStep W g n C C') : ∃ ds', Thrifty W.E C' ds' := by
  have hj : ∀ c : Call, Judge (c.world W) g (Even W.E) := fun c => even_judge rfl g
  cases hs with
  | marshal hd => exact ⟨_, thrifty_new h ⟨rfl, rfl, rfl⟩ (judge_marshal (hj _) n)⟩
  | append junk hd => 
    refine ⟨ds ++ [⟨0, none⟩], thrifty_new h ?_ ?_⟩
    · exact ⟨rfl, rfl, rfl⟩
    · exact judge_append (hj _) n _
  | op ho => exact thrifty_op h ho
  | method hm =>
    cases hm with
    | scribble hi hp _ _ _ => exact ⟨ds, h.len, h.neat, h.made, h.slots, h.nodup, h.structs⟩
    | innerMarshal hi hp _ _ => exact ⟨ds, thrifty_inner h ⟨rfl, rfl, rfl⟩ hi hp (judge_marshal (hj _) n)⟩
    | innerAppend junk hi hp _ _ => 
      refine ⟨ds, thrifty_inner h ?_ hi hp ?_⟩
      · exact ⟨rfl, rfl, rfl⟩
      · exact judge_append (hj _) n _
    | innerDst hi hp _ _ _ _ _ => exact ⟨ds, thrifty_inner h ⟨rfl, rfl, rfl⟩ hi hp (judge_append (hj _) n _)⟩
  | drop hm => exact ⟨ds, h.len, h.neat, h.made, h.slots, h.nodup, h.structs⟩

theorem thrifty_reached (hr : Reached W g n C) : ∃ ds, Thrifty W.E C ds := by
  unfold Reached at hr
  induction hr with
  | refl => exact ⟨[], rfl, fun i T d hi => by simp at hi, by simp [Shared.init], rfl, List.nodup_nil, fun k hk => by cases hk⟩
  | step _ h ih =>
    obtain ⟨ds, hd⟩ := ih
    exact thrifty_step hd h

/-- C70: at most one instruction is ever made for a struct type, and one more for values of it that are
not addressable: as many as there are struct types, twice, whatever the calls and their schedule. -/
theorem C70_once (hr : Reached W g n C) : C.sh.closures.length ≤ (promised C.sh).length ∧ (promised C.sh).Nodup ∧ (∀ k ∈ promised C.sh, IsStruct W.E k.1) ∧
    ∀ S : List TId, (∀ t, IsStruct W.E t → t ∈ S) → C.sh.closures.length ≤ 2 * S.length := by
  obtain ⟨ds, h⟩ := thrifty_reached hr
  have h1 : C.sh.closures.length ≤ (promised C.sh).length := by have := h.made; have := h.slots; omega
  refine ⟨h1, h.nodup, h.structs, fun S hS => Nat.le_trans h1 ?_⟩
  have := nodup_subset_length (promised C.sh) (S.map (·, true) ++ S.map (·, false)) h.nodup (by
    rintro ⟨t, b⟩ hk
    have := hS t (h.structs _ hk)
    cases b <;> simp [this])
  simp at this
  omega

/-! ## What is known stays known -/

/-- An execution all of whose states are so. -/
inductive Through (W : World) (g n : Nat) (P : Conf → Prop) : Conf → Conf → Prop
  | refl {C0} : P C0 → Through W g n P C0 C0
  | step {C0 C1 C2} : Through W g n P C0 C1 → CStep W g n C1 C2 → P C2 → Through W g n P C0 C2

/-- The instruction for values of this type is in the cache. -/
def IsKnown (C : Conf) (t : TId) : Prop := ∃ i, (t, i) ∈ C.sh.cache

/-- All calls have returned. -/
def Settled (C : Conf) : Prop := ∀ T ∈ C.thr, ∃ out, Returned T out

/-- At most one call has not returned. -/
def OneAtATime (C : Conf) : Prop :=
  ∀ (i j : Nat) (T T' : Thread), C.thr[i]? = some T → C.thr[j]? = some T' → (∀ out, ¬ Returned T out) → (∀ out, ¬ Returned T' out) → i = j

/-- The copy of the cache a goroutine will store is that of the moment, and a type is known if one goroutine has found it. -/
structure Faithful (E : Env) (C : Conf) (ds : List Debt) : Prop where
  len : ds.length = C.thr.length
  neat : ∀ (i : Nat) (T : Thread) (d : Debt), C.thr[i]? = some T → ds[i]? = some d → Neat E ⟨0, none⟩ d T.prog
  copy : ∀ (i : Nat) (d : Debt) m, ds[i]? = some d → d.copy = some m → m = C.sh.cache

theorem op_cache {o : Op} {σ σ' : Shared} {x : o.Res} (h : o.step σ σ' x) (ho : ∀ m, o ≠ .storeCache m) : σ'.cache = σ.cache := by
  cases o with
  | storeCache m => exact absurd rfl (ho m)
  | loadOrStore k => simp only [Op.step] at h; split at h <;> (obtain ⟨rfl, -⟩ := h; rfl)
  | newClosure c => obtain ⟨rfl, -⟩ := h; rfl
  | setIns c f => obtain ⟨s, -, rfl⟩ := h; rfl
  | done c => obtain ⟨s, -, rfl⟩ := h; rfl
  | storeStruct k f => cases h; rfl
  | addFields t l => simp only [Op.step] at h; split at h <;> (obtain ⟨rfl, -⟩ := h; rfl)
  | addEmpty t l => simp only [Op.step] at h; split at h <;> (obtain ⟨rfl, -⟩ := h; rfl)
  | scratch s => obtain ⟨_, _, -, -, -, -, rfl, -⟩ := h; rfl
  | write s b => obtain ⟨_, -, ⟨_, -, -, -, -, rfl⟩ | ⟨_, _, -, -, -, -, -, rfl⟩⟩ := h <;> rfl
  | alloc b => obtain ⟨_, rfl, -⟩ := h; rfl
  | get P => rcases h with ⟨-, rfl⟩ | ⟨_, _, -, rfl, -⟩ <;> rfl
  | store id v => obtain ⟨-, rfl⟩ := h; rfl
  | put P id => cases h; rfl
  | back m c l out => cases h; rfl
  | _ => obtain ⟨rfl, -⟩ := h; rfl

/-- The next debt. -/
theorem neat_step {E : Env} {d : Debt} {o : Op} {Q : Debt → o.Res → Prop} {σ σ' : Shared} {x : o.Res} (h : OpNeat E d o Q) (hs : o.step σ σ' x) :
    ∃ d', Q d' x ∧ (o = .loadCache ∧ d'.copy = some σ.cache ∨ d'.copy = none) ∧ ((∀ m, o ≠ .storeCache m) ∨ ∃ m e, d.copy = some m ∧ σ'.cache = e :: m) := by
  cases o with
  | loadCache => obtain ⟨rfl, rfl⟩ := hs; exact ⟨_, h.2 _, .inl ⟨rfl, rfl⟩, .inl fun m hm => by cases hm⟩
  | storeCache m => cases hs; obtain ⟨⟨m', e, h1, rfl⟩, h2⟩ := h; exact ⟨_, h2, .inr rfl, .inr ⟨m', e, h1, rfl⟩⟩
  | loadOrStore key =>
    obtain ⟨h0, h1, h2, h3⟩ := h
    simp only [Op.step] at hs
    split at hs
    · obtain ⟨-, rfl⟩ := hs; exact ⟨_, h2 _, .inr h0, .inl fun m hm => by cases hm⟩
    · obtain ⟨-, rfl⟩ := hs; exact ⟨_, h3 _, .inr rfl, .inl fun m hm => by cases hm⟩
  | newClosure c => obtain ⟨h0, m, h1, h2⟩ := h; exact ⟨_, h2 _, .inr rfl, .inl fun m hm => by cases hm⟩
  | _ => exact ⟨_, h.2 x, .inr h.1, .inl fun m hm => by cases hm⟩

/-- Nobody is about to store a copy of the cache who has returned. -/
theorem neat_busy {E : Env} {d : Debt} {T : Thread} (h : Neat E ⟨0, none⟩ d T.prog) (hc : d.copy ≠ none) : ∀ out, ¬ Returned T out := by
  intro out ho
  unfold Returned at ho
  rw [ho] at h
  have : d = ⟨0, none⟩ := h
  rw [this] at hc
  exact hc rfl

theorem faithful_new {E : Env} {ds : List Debt} (h : Faithful E C ds) {σ : Shared} (hc : σ.cache = C.sh.cache) {T : Thread} (hT : Even E T.prog) :
    Faithful E ⟨σ, C.thr ++ [T]⟩ (ds ++ [⟨0, none⟩]) where
  len := by simp [h.len]
  neat i T' d hi hd := by
    by_cases hlt : i < C.thr.length
    · rw [List.getElem?_append_left hlt] at hi
      rw [List.getElem?_append_left (by rw [h.len]; exact hlt)] at hd
      exact h.neat i T' d hi hd
    · rw [List.getElem?_append_right (by omega)] at hi
      rw [List.getElem?_append_right (by rw [h.len]; omega), h.len] at hd
      have : i - C.thr.length = 0 := by have := (List.getElem?_eq_some_iff.mp hi).1; simp at this; omega
      rw [this] at hi hd
      cases hi; cases hd
      exact hT 0
  copy i d m hd hm := by
    by_cases hlt : i < ds.length
    · rw [List.getElem?_append_left hlt] at hd
      exact (h.copy i d m hd hm).trans hc.symm
    · rw [List.getElem?_append_right (by omega)] at hd
      have : i - ds.length = 0 := by have := (List.getElem?_eq_some_iff.mp hd).1; simp at this; omega
      rw [this] at hd
      cases hd; cases hm

theorem faithful_inner {E : Env} {ds : List Debt} (h : Faithful E C ds) {σ : Shared} (hc : σ.cache = C.sh.cache) {i : Nat} {T : Thread} (hi : C.thr[i]? = some T) {s : Sl} {k : Bytes → Prog Out}
    (hp : T.prog = .op (.scratch s) k) {m : Nat} {c : Call} {p : Prog Out} (he : Even E p) : Faithful E ⟨σ, C.thr.set i (T.during m c p s k)⟩ ds where
  len := by simp [h.len]
  neat j T' d hj hd := by
    by_cases hji : i = j
    · subst hji
      have hlt : i < C.thr.length := (List.getElem?_eq_some_iff.mp hi).1
      rw [List.getElem?_set_self hlt] at hj
      cases hj
      have hn := h.neat i T d hi hd
      rw [hp] at hn
      obtain ⟨h0, h1⟩ : OpNeat E d (.scratch s) _ := hn
      obtain ⟨w, cp⟩ := d
      cases h0
      exact neat_bind (f := fun out => .op (.back m c T.held out) fun _ => .op (.scratch s) k) (fun out => ⟨rfl, fun _ => ⟨rfl, h1⟩⟩) (he w)
    · rw [List.getElem?_set_ne hji] at hj
      exact h.neat j T' d hj hd
  copy j d m' hd hm := (h.copy j d m' hd hm).trans hc.symm

theorem faithful_step {ds : List Debt} (h : Faithful W.E C ds) (h1 : OneAtATime C) (hs : CStep W g n C C') :
    (∃ ds', Faithful W.E C' ds') ∧ ∀ x ∈ C.sh.cache, x ∈ C'.sh.cache := by
  have hj : ∀ c : Call, Judge (c.world W) g (Even W.E) := fun c => even_judge rfl g
  cases hs with
  | marshal hd => exact ⟨⟨_, faithful_new h rfl (judge_marshal (hj _) n)⟩, fun _ hx => hx⟩
  | append junk hd => 
    refine ⟨⟨ds ++ [⟨0, none⟩], faithful_new h ?_ ?_⟩, fun _ hx => hx⟩
    · rfl
    · exact judge_append (hj _) n _
  | method hm =>
    cases hm with
    | scribble hi hp _ _ _ => exact ⟨⟨ds, h.len, h.neat, h.copy⟩, fun _ hx => hx⟩
    | innerMarshal hi hp _ _ => exact ⟨⟨ds, faithful_inner h rfl hi hp (judge_marshal (hj _) n)⟩, fun _ hx => hx⟩
    | innerAppend junk hi hp _ _ => 
      refine ⟨⟨ds, faithful_inner h ?_ hi hp ?_⟩, fun _ hx => hx⟩
      · rfl
      · exact judge_append (hj _) n _
    | innerDst hi hp _ _ _ _ _ => exact ⟨⟨ds, faithful_inner h rfl hi hp (judge_append (hj _) n _)⟩, fun _ hx => hx⟩
  | drop hm => exact ⟨⟨ds, h.len, h.neat, h.copy⟩, fun _ hx => hx⟩
  | op ho =>
    cases ho with
    | mk hi hst =>
      rename_i i c o k held inner σ x
      have hlt : i < C.thr.length := (List.getElem?_eq_some_iff.mp hi).1
      obtain ⟨d, hd⟩ : ∃ d, ds[i]? = some d := ⟨_, List.getElem?_eq_getElem (by rw [h.len]; exact hlt)⟩
      have hn : OpNeat W.E d o _ := h.neat i _ d hi hd
      obtain ⟨d', hq, hc, hcache⟩ := neat_step hn hst
      have others : ∀ (j : Nat) (e : Debt), j ≠ i → ds[j]? = some e → e.copy = none := by
        intro j e hji he
        have hjlt : j < C.thr.length := by rw [← h.len]; exact (List.getElem?_eq_some_iff.mp he).1
        refine Classical.byContradiction fun hne => hji (h1 j i _ _ (List.getElem?_eq_getElem hjlt) hi ?_ ?_)
        · exact neat_busy (h.neat j _ e (List.getElem?_eq_getElem hjlt) he) hne
        · intro out ho; cases ho
      refine ⟨⟨ds.set i d', by simp [h.len], ?_, ?_⟩, ?_⟩
      · intro j T e hj he
        by_cases hji : i = j
        · subst hji
          rw [List.getElem?_set_self hlt] at hj
          rw [List.getElem?_set_self (by rw [h.len]; exact hlt)] at he
          cases hj; cases he; exact hq
        · rw [List.getElem?_set_ne hji] at hj he
          exact h.neat j T e hj he
      · intro j e m he hm
        by_cases hji : i = j
        · subst hji
          rw [List.getElem?_set_self (by rw [h.len]; exact hlt)] at he
          cases he
          rcases hc with ⟨rfl, hc⟩ | hc
          · obtain ⟨rfl, -⟩ := hst
            rw [hc] at hm; cases hm; rfl
          · rw [hc] at hm; cases hm
        · rw [List.getElem?_set_ne hji] at he
          rw [others j e (fun h => hji h.symm) he] at hm; cases hm
      · intro y hy
        show y ∈ σ.cache
        rcases hcache with hne | ⟨m, e, hm, he⟩
        · rw [op_cache hst hne]; exact hy
        · rw [he, h.copy i d m hd hm]; exact List.mem_cons_of_mem _ hy

theorem faithful_settled (hr : Reached W g n C) (hs : Settled C) : ∃ ds, Faithful W.E C ds := by
  obtain ⟨ds, h⟩ := thrifty_reached hr
  refine ⟨ds, h.len, h.neat, fun i d m hd hm => ?_⟩
  have hlt : i < C.thr.length := by rw [← h.len]; exact (List.getElem?_eq_some_iff.mp hd).1
  obtain ⟨out, ho⟩ := hs _ (List.getElem_mem hlt)
  exact absurd ho (neat_busy (h.neat i _ d (List.getElem?_eq_getElem hlt) hd) (by rw [hm]; simp) out)

theorem through_last {P : Conf → Prop} (ht : Through W g n P C C') : P C' := by
  cases ht with
  | refl h => exact h
  | step _ _ h => exact h

theorem faithful_through {P : Conf → Prop} (hP : ∀ C, P C → OneAtATime C) {ds : List Debt} (h : Faithful W.E C ds) (ht : Through W g n P C C') :
    (∃ ds', Faithful W.E C' ds') ∧ ∀ x ∈ C.sh.cache, x ∈ C'.sh.cache := by
  induction ht with
  | refl _ => exact ⟨⟨ds, h⟩, fun _ hx => hx⟩
  | step hst hs _ ih =>
    obtain ⟨⟨ds', h'⟩, hk⟩ := ih
    obtain ⟨a, b⟩ := faithful_step h' (hP _ (through_last hst)) hs
    exact ⟨a, fun x hx => b x (hk x hx)⟩

/-- C70: as long as calls do not overlap, a type that is known stays known, with the same instruction;
whatever has happened before. -/
theorem C70_kept (hr : Reached W g n C) (hs : Settled C) (ht : Through W g n OneAtATime C C') {t : TId} (hk : IsKnown C t) : IsKnown C' t := by
  obtain ⟨ds, h⟩ := faithful_settled hr hs
  obtain ⟨i, hi⟩ := hk
  exact ⟨i, (faithful_through (fun _ h => h) h ht).2 _ hi⟩

/-- The calls made since then for values of a type have found or made its instruction, or will. -/
def Learning (k : Nat) (C : Conf) : Prop :=
  ∀ (i : Nat) (T : Thread) t w o, C.thr[i]? = some T → k ≤ i → T.call.value = some (t, w) → prepare T.call.opts = .ok o →
    ∃ b, Learns t b T.prog ∧ (b = true → IsKnown C t)

theorem learns_marshal {c : Call} {t : TId} {w : Addr} {o : EncOpts} (hv : c.value = some (t, w)) (hp : prepare c.opts = .ok o) : Learns t false (c.marshal W g n) := by
  unfold Call.marshal
  rw [hv]
  simp only [hp]
  exact learns_first (learns_cached _ _ _)

theorem learns_append {c : Call} {t : TId} {w : Addr} {o : EncOpts} (hv : c.value = some (t, w)) (hp : prepare c.opts = .ok o) (dst : Sl) : Learns t false (c.append W g n dst) := by
  unfold Call.append
  rw [hv]
  simp only [hp]
  exact learns_first (learns_first (learns_cached _ _ _))

theorem assoc_mem {κ α : Type} [DecidableEq κ] {k : κ} {a : α} : ∀ {l : List (κ × α)}, assoc k l = some a → (k, a) ∈ l
  | [], h => by cases h
  | (k', a') :: l, h => by
    unfold assoc at h
    split at h
    · next e => cases h; subst e; exact List.mem_cons_self
    · exact List.mem_cons_of_mem _ (assoc_mem h)

theorem learning_new {k : Nat} (h : Learning k C) {σ : Shared} (hc : σ.cache = C.sh.cache) {T : Thread}
    (hT : ∀ t w o, T.call.value = some (t, w) → prepare T.call.opts = .ok o → Learns t false T.prog) : Learning k ⟨σ, C.thr ++ [T]⟩ := by
  intro i T' t w o hi hk hv hp
  by_cases hlt : i < C.thr.length
  · rw [List.getElem?_append_left hlt] at hi
    obtain ⟨b, h1, h2⟩ := h i T' t w o hi hk hv hp
    exact ⟨b, h1, fun hb => by obtain ⟨x, hx⟩ := h2 hb; exact ⟨x, by show _ ∈ σ.cache; rw [hc]; exact hx⟩⟩
  · rw [List.getElem?_append_right (by omega)] at hi
    have : i - C.thr.length = 0 := by have := (List.getElem?_eq_some_iff.mp hi).1; simp at this; omega
    rw [this] at hi
    cases hi
    exact ⟨false, hT t w o hv hp, fun h => by cases h⟩

theorem learning_inner {k0 : Nat} (h : Learning k0 C) {σ : Shared} (hc : σ.cache = C.sh.cache) {i : Nat} {T : Thread} (hi : C.thr[i]? = some T) {s : Sl} {k : Bytes → Prog Out}
    (hp : T.prog = .op (.scratch s) k) {m : Nat} {c : Call} {p : Prog Out} : Learning k0 ⟨σ, C.thr.set i (T.during m c p s k)⟩ := by
  intro j T' t w o hj hk hv ho
  have known : ∀ t, IsKnown C t → IsKnown ⟨σ, C.thr.set i (T.during m c p s k)⟩ t := fun t ⟨x, hx⟩ => ⟨x, by show _ ∈ σ.cache; rw [hc]; exact hx⟩
  by_cases hji : i = j
  · subst hji
    have hlt : i < C.thr.length := (List.getElem?_eq_some_iff.mp hi).1
    rw [List.getElem?_set_self hlt] at hj
    cases hj
    obtain ⟨b, h1, h2⟩ := h i T t w o hi hk hv ho
    refine ⟨b, ?_, fun hb => known t (h2 hb)⟩
    rw [hp] at h1
    show Learns t b (p >>= fun out => .op (.back m c T.held out) fun _ => .op (.scratch s) k)
    cases b with
    | true => exact learns_true t _
    | false => exact learns_bind (f := fun out => .op (.back m c T.held out) fun _ => .op (.scratch s) k) (fun _ _ => h1) _ _
  · rw [List.getElem?_set_ne hji] at hj
    obtain ⟨b, h1, h2⟩ := h j T' t w o hj hk hv ho
    exact ⟨b, h1, fun hb => known t (h2 hb)⟩

theorem learning_step {k0 : Nat} (h : Learning k0 C) (hs : CStep W g n C C') (hc : ∀ x ∈ C.sh.cache, x ∈ C'.sh.cache) : Learning k0 C' := by
  cases hs with
  | marshal hd => exact learning_new h rfl fun t w o hv hp => learns_marshal hv hp
  | append junk hd =>
    refine learning_new h ?_ fun t w o hv hp => ?_
    · rfl
    · exact learns_append hv hp _
  | method hm =>
    cases hm with
    | scribble hi hp _ _ _ => exact h
    | innerMarshal hi hp _ _ => exact learning_inner h rfl hi hp
    | innerAppend junk hi hp _ _ => refine learning_inner h ?_ hi hp; rfl
    | innerDst hi hp _ _ _ _ _ => exact learning_inner h rfl hi hp
  | drop hm => exact h
  | op ho =>
    cases ho with
    | mk hi hst =>
      rename_i i c o k held inner σ x
      intro j T' t w opts hj hk hv hp
      by_cases hji : i = j
      · subst hji
        have hlt : i < C.thr.length := (List.getElem?_eq_some_iff.mp hi).1
        rw [List.getElem?_set_self hlt] at hj
        cases hj
        obtain ⟨b, h1, h2⟩ := h i _ t w opts hi hk hv hp
        refine ⟨learnt t b o x, h1 x, fun hb => ?_⟩
        have old : b = true → IsKnown _ t := fun hb => let ⟨y, hy⟩ := h2 hb; ⟨y, hc _ hy⟩
        cases o with
        | loadInstr t' =>
          simp only [learnt, Bool.or_eq_true, Bool.and_eq_true, beq_iff_eq] at hb
          rcases hb with hb | ⟨rfl, hb⟩
          · exact old hb
          · obtain ⟨rfl, rfl⟩ := hst
            obtain ⟨y, hy⟩ := Option.isSome_iff_exists.mp hb
            exact ⟨y, assoc_mem hy⟩
        | storeCache m =>
          simp only [learnt, Bool.or_eq_true, List.any_eq_true, beq_iff_eq] at hb
          rcases hb with hb | ⟨⟨t', y⟩, hy, rfl⟩
          · exact old hb
          · cases hst; exact ⟨y, hy⟩
        | _ => exact old hb
      · rw [List.getElem?_set_ne hji] at hj
        obtain ⟨b, h1, h2⟩ := h j T' t w opts hj hk hv hp
        exact ⟨b, h1, fun hb => let ⟨y, hy⟩ := h2 hb; ⟨y, hc _ hy⟩⟩

/-- C70: as long as calls do not overlap, the type of the value of a call that has returned is known,
unless it returned because of its options. -/
theorem C70_learnt (hr : Reached W g n C) (hs : Settled C) (ht : Through W g n OneAtATime C C') {i : Nat} {T : Thread} {t : TId} {w : Addr} {o : EncOpts} {out : Out}
    (hi : C'.thr[i]? = some T) (hnew : C.thr.length ≤ i) (hv : T.call.value = some (t, w)) (hp : prepare T.call.opts = .ok o) (ho : Returned T out) : IsKnown C' t := by
  obtain ⟨ds, h⟩ := faithful_settled hr hs
  have key : Learning C.thr.length C' := by
    clear hi ho
    induction ht with
    | refl _ => intro i T t w o hi hk; have := (List.getElem?_eq_some_iff.mp hi).1; omega
    | step hst hs' _ ih =>
      obtain ⟨⟨ds', h'⟩, -⟩ := faithful_through (fun _ h => h) h hst
      exact learning_step ih hs' (faithful_step h' (through_last hst) hs').2
  obtain ⟨b, h1, h2⟩ := key i T t w o hi hnew hv hp
  unfold Returned at ho
  rw [ho] at h1
  exact h2 h1

/-! ## When all types are known -/

/-- The types that are being looked up are known. -/
def AllFound (C : Conf) : Prop := ∀ T ∈ C.thr, ∀ (t : TId) (k : Option CInstr → Prog Out), T.prog = .op (.loadInstr t) k → IsKnown C t

/-- The caches are the same. -/
structure SameCaches (σ σ' : Shared) : Prop where
  cache : σ'.cache = σ.cache
  structs : σ'.structs = σ.structs
  slots : σ'.slots = σ.slots
  closures : σ'.closures = σ.closures
  fields : σ'.fields = σ.fields
  empties : σ'.empties = σ.empties

theorem idle_step (hi : ∀ T ∈ C.thr, Idle T.prog) (hf : AllFound C) (hs : CStep W g n C C') : (∀ T ∈ C'.thr, Idle T.prog) ∧ SameCaches C.sh C'.sh := by
  have hj : ∀ c : Call, Judge (c.world W) g Idle := fun c => idle_judge _ g
  have inner : ∀ {i : Nat} {T : Thread} {s : Sl} {k : Bytes → Prog Out} {m : Nat} {c : Call} {p : Prog Out}, C.thr[i]? = some T → T.prog = .op (.scratch s) k → Idle p →
      ∀ T' ∈ C.thr.set i (T.during m c p s k), Idle T'.prog := by
    intro i T s k m c p hT hp hip T' hT'
    rcases List.mem_or_eq_of_mem_set hT' with h | rfl
    · exact hi T' h
    · have := hi T (List.mem_of_getElem? hT)
      rw [hp] at this
      exact idle_bind (f := fun out => .op (.back m c T.held out) fun _ => .op (.scratch s) k) (fun out _ => this) hip
  have fresh : ∀ {T : Thread}, Idle T.prog → ∀ T' ∈ C.thr ++ [T], Idle T'.prog := by
    intro T hT T' hT'
    rcases List.mem_append.mp hT' with h | h
    · exact hi T' h
    · cases List.mem_singleton.mp h; exact hT
  cases hs with
  | marshal hd => exact ⟨fresh (judge_marshal (hj _) n), rfl, rfl, rfl, rfl, rfl, rfl⟩
  | append junk hd => exact ⟨fresh (judge_append (hj _) n _), rfl, rfl, rfl, rfl, rfl, rfl⟩
  | method hm =>
    cases hm with
    | scribble h1 h2 _ _ _ => exact ⟨hi, rfl, rfl, rfl, rfl, rfl, rfl⟩
    | innerMarshal h1 h2 _ _ => exact ⟨inner h1 h2 (judge_marshal (hj _) n), rfl, rfl, rfl, rfl, rfl, rfl⟩
    | innerAppend junk h1 h2 _ _ => exact ⟨inner h1 h2 (judge_append (hj _) n _), rfl, rfl, rfl, rfl, rfl, rfl⟩
    | innerDst h1 h2 _ _ _ _ _ => exact ⟨inner h1 h2 (judge_append (hj _) n _), rfl, rfl, rfl, rfl, rfl, rfl⟩
  | drop hm => exact ⟨hi, rfl, rfl, rfl, rfl, rfl, rfl⟩
  | op ho =>
    cases ho with
    | mk hT hst =>
      rename_i i c o k held inner' σ x
      have hmem := List.mem_of_getElem? hT
      have hio : OpIdle o fun x => Idle (k x) := hi _ hmem
      have key : Idle (k x) ∧ SameCaches C.sh σ := by
        cases o with
        | loadInstr t =>
          obtain ⟨rfl, rfl⟩ := hst
          obtain ⟨y, hy⟩ := hf _ hmem t k rfl
          cases ha : assoc t C.sh.cache with
          | none => exact absurd hy (assoc_none ha y)
          | some z => exact ⟨hio z, rfl, rfl, rfl, rfl, rfl, rfl⟩
        | scratch s => obtain ⟨_, _, -, -, -, -, rfl, -⟩ := hst; exact ⟨hio _, rfl, rfl, rfl, rfl, rfl, rfl⟩
        | write s b => obtain ⟨_, -, ⟨_, -, -, -, -, rfl⟩ | ⟨_, _, -, -, -, -, -, rfl⟩⟩ := hst <;> exact ⟨hio _, rfl, rfl, rfl, rfl, rfl, rfl⟩
        | alloc b => obtain ⟨_, rfl, -⟩ := hst; exact ⟨hio _, rfl, rfl, rfl, rfl, rfl, rfl⟩
        | get P => rcases hst with ⟨-, rfl⟩ | ⟨_, _, -, rfl, -⟩ <;> exact ⟨hio _, rfl, rfl, rfl, rfl, rfl, rfl⟩
        | store id v => obtain ⟨-, rfl⟩ := hst; exact ⟨hio _, rfl, rfl, rfl, rfl, rfl, rfl⟩
        | put P id => cases hst; exact ⟨hio _, rfl, rfl, rfl, rfl, rfl, rfl⟩
        | back m c l out => cases hst; exact ⟨hio _, rfl, rfl, rfl, rfl, rfl, rfl⟩
        | wait p => obtain ⟨rfl, -⟩ := hst; exact ⟨hio _, rfl, rfl, rfl, rfl, rfl, rfl⟩
        | captured f => obtain ⟨rfl, -⟩ := hst; exact ⟨hio _, rfl, rfl, rfl, rfl, rfl, rfl⟩
        | read s => obtain ⟨rfl, -⟩ := hst; exact ⟨hio _, rfl, rfl, rfl, rfl, rfl, rfl⟩
        | load id => obtain ⟨rfl, -⟩ := hst; exact ⟨hio _, rfl, rfl, rfl, rfl, rfl, rfl⟩
        | _ => exact hio.elim
      refine ⟨fun T' hT' => ?_, key.2⟩
      rcases List.mem_or_eq_of_mem_set hT' with h | rfl
      · exact hi T' h
      · exact key.1

/-- C70: calls that find all types known, also those of values in interfaces, change no cache; they may
overlap, and methods may call the library. -/
theorem C70_quiet (hs : Settled C) (ht : Through W g n AllFound C C') : SameCaches C.sh C'.sh := by
  have : (∀ T ∈ C'.thr, Idle T.prog) ∧ SameCaches C.sh C'.sh := by
    induction ht with
    | refl _ =>
      refine ⟨fun T hT => ?_, rfl, rfl, rfl, rfl, rfl, rfl⟩
      obtain ⟨out, ho⟩ := hs T hT
      unfold Returned at ho
      rw [ho]; trivial
    | step hst h _ ih =>
      obtain ⟨h1, h2⟩ := ih
      obtain ⟨h3, h4⟩ := idle_step h1 (through_last hst) h
      exact ⟨h3, h4.cache.trans h2.cache, h4.structs.trans h2.structs, h4.slots.trans h2.slots, h4.closures.trans h2.closures, h4.fields.trans h2.fields, h4.empties.trans h2.empties⟩
  exact this.2

/-! ## Concrete executions -/

/-- `Marshal` of the number of the first node. -/
def callI : Call := ⟨shopH nodeCells, shopW.order, some (0, 500), [], none⟩

/-- A call of `Marshal` is made. -/
def marshaled (C : Conf) (c : Call) : Conf := ⟨C.sh, C.thr ++ [⟨c, c.marshal shopW 20 9, [], []⟩]⟩

def returnedB (T : Thread) : Bool := match T.prog with | .ret _ => true | _ => false
def settledB (C : Conf) : Bool := C.thr.all returnedB
def knownB (C : Conf) : List TId := C.sh.cache.map (·.1)

theorem returnedB_iff {T : Thread} : returnedB T = true ↔ ∃ out, Returned T out := by
  unfold returnedB Returned
  cases T.prog with
  | ret out => simp
  | _ => simp

theorem settledB_sound {C : Conf} (h : settledB C = true) : Settled C := fun T hT => returnedB_iff.mp (List.all_eq_true.mp h T hT)

theorem known_iff {C : Conf} {t : TId} : IsKnown C t ↔ t ∈ knownB C := by simp [IsKnown, knownB]

/-- The number is marshaled, and the node while that call is about to store what it has prepared. -/
def overlap : Conf := trySteps (List.replicate 2 0 ++ List.replicate 90 1 ++ List.replicate 90 0) (marshaled (marshaled ⟨.init, []⟩ callI) callA)

theorem overlap_reached : Reached shopW 20 9 overlap := trySteps_ok _ (.step (.step .refl (.marshal rfl)) (.marshal rfl))

/-- Finding 25: calls that overlap may lose what others have prepared. The call for the node has
returned, but its type is not known any more. -/
theorem C70_lost_wrong : Reached shopW 20 9 overlap ∧ Settled overlap ∧ (∃ T ∈ overlap.thr, ∃ w, T.call.value = some (64, w)) ∧ ¬ IsKnown overlap 64 := by
  refine ⟨overlap_reached, settledB_sound (by decide +kernel), ?_, fun h => absurd (known_iff.mp h) (by decide +kernel)⟩
  have h : some (64, 500) ∈ overlap.thr.map (·.call.value) := by decide +kernel
  obtain ⟨T, hT, hv⟩ := List.mem_map.mp h
  exact ⟨T, hT, 500, hv⟩

/-- An execution all of whose states pass a check. -/
def tryThrough (P : Conf → Bool) : List Nat → Conf → Bool
  | [], C => P C
  | i :: l, C => P C && tryThrough P l (tryStep i C)

theorem through_first {P : Conf → Prop} {C C' C'' : Conf} (hp : P C) (hs : CStep W g n C C') (ht : Through W g n P C' C'') : Through W g n P C C'' := by
  induction ht with
  | refl h => exact .step (.refl hp) hs h
  | step _ h1 h2 ih => exact .step ih h1 h2

theorem tryThrough_ok {P : Conf → Bool} {Q : Conf → Prop} (hQ : ∀ C, P C = true → Q C) {W : World} {g n : Nat} : ∀ (l : List Nat) {C : Conf}, tryThrough P l C = true → Through W g n Q C (trySteps l C)
  | [], C, h => .refl (hQ C h)
  | i :: l, C, h => by
    simp only [tryThrough, Bool.and_eq_true] at h
    have ih := tryThrough_ok hQ (W := W) (g := g) (n := n) l h.2
    have := tryStep_ok W g n i C
    simp only [trySteps]
    generalize tryStep i C = D at this ih
    cases this with
    | pause => exact ih
    | step hs => exact through_first (hQ C h.1) hs ih

def oneB (C : Conf) : Bool := (List.range C.thr.length).all fun i => (List.range C.thr.length).all fun j =>
  match C.thr[i]?, C.thr[j]? with
  | some T, some T' => returnedB T || returnedB T' || i == j
  | _, _ => true

theorem oneB_sound (C : Conf) (h : oneB C = true) : OneAtATime C := by
  intro i j T T' hi hj hT hT'
  have := List.all_eq_true.mp (List.all_eq_true.mp h i (List.mem_range.mpr (List.getElem?_eq_some_iff.mp hi).1)) j (List.mem_range.mpr (List.getElem?_eq_some_iff.mp hj).1)
  simp only [hi, hj, Bool.or_eq_true, beq_iff_eq] at this
  rcases this with (h | h) | h
  · obtain ⟨out, ho⟩ := returnedB_iff.mp h; exact absurd ho (hT out)
  · obtain ⟨out, ho⟩ := returnedB_iff.mp h; exact absurd ho (hT' out)
  · exact h

def foundB (C : Conf) : Bool := C.thr.all fun T => match T.prog with | .op (.loadInstr t) _ => decide (t ∈ knownB C) | _ => true

theorem foundB_sound (C : Conf) (h : foundB C = true) : AllFound C := by
  intro T hT t k hp
  have := List.all_eq_true.mp h T hT
  rw [hp] at this
  exact known_iff.mpr (of_decide_eq_true this)

/-- After the overlap the node is marshaled once more, and that makes its type known. -/
example : Through shopW 20 9 OneAtATime (marshaled overlap callA) (trySteps (List.replicate 90 2) (marshaled overlap callA)) :=
  tryThrough_ok oneB_sound _ (by decide +kernel)

def third : Conf := trySteps (List.replicate 90 2) (marshaled overlap callA)

theorem third_through : Through shopW 20 9 OneAtATime overlap third :=
  through_first (oneB_sound _ (by decide +kernel)) (.marshal rfl) (tryThrough_ok oneB_sound _ (by decide +kernel))

example : IsKnown third 64 ∧ IsKnown third 0 := by
  have hs : Settled overlap := settledB_sound (by decide +kernel)
  have hv : (third.thr[2]?).map (fun T => (T.call.value, prepare T.call.opts matches .ok _, returnedB T)) = some (some (64, 500), true, true) := by decide +kernel
  refine ⟨?_, C70_kept overlap_reached hs third_through (known_iff.mpr (by decide +kernel))⟩
  cases hi : third.thr[2]? with
  | none => rw [hi] at hv; cases hv
  | some T =>
    rw [hi] at hv
    simp only [Option.map_some, Option.some.injEq, Prod.mk.injEq] at hv
    obtain ⟨h1, h2, h3⟩ := hv
    obtain ⟨out, ho⟩ := returnedB_iff.mp h3
    cases hp : prepare T.call.opts with
    | error e => rw [hp] at h2; cases h2
    | ok o => exact C70_learnt overlap_reached hs third_through hi (by decide +kernel) h1 hp ho

/-- Then both calls are made again, at the same time. -/
def fourth : Conf := marshaled (marshaled third callI) callA
def turns : List Nat := (List.replicate 90 [3, 4]).flatten

example : SameCaches third.sh (trySteps turns fourth).sh ∧ settledB (trySteps turns fourth) = true :=
  ⟨C70_quiet (settledB_sound (by decide +kernel))
    (through_first (foundB_sound _ (by decide +kernel)) (.marshal rfl)
      (through_first (foundB_sound _ (by decide +kernel)) (.marshal rfl) (tryThrough_ok foundB_sound _ (by decide +kernel)))), by decide +kernel⟩

/-- One instruction has been made for `Node`, and one for `Node` in a `*Node`. -/
example : (trySteps turns fourth).sh.closures.length = 2 ∧ promised (trySteps turns fourth).sh = [(64, true), (64, false)] := by decide +kernel

end Jettison.Props
