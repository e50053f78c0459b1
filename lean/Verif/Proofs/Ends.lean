import Verif.Spec.Finite
import Verif.Proofs.Refine
import Verif.Proofs.GenOk

/-!
# Generation ends on finite types, encoding on finite values
-/

namespace Jettison.Proofs
open Jettison Jettison.Model Jettison.Spec

/-! ## Types -/

section
variable {E : Env} {S : List TId}

theorem countP_lt {α : Type} {p q : α → Bool} : ∀ {l : List α} {u : α}, (∀ x ∈ l, p x = true → q x = true) → u ∈ l → q u = true → p u = false →
    l.countP p < l.countP q
  | [], _, _, hu, _, _ => by cases hu
  | a :: l, u, hpq, hu, hq, hp => by
    have hle : l.countP p ≤ l.countP q := List.countP_mono_left fun x hx => hpq x (List.mem_cons_of_mem _ hx)
    rw [List.countP_cons, List.countP_cons]
    rcases List.mem_cons.mp hu with rfl | hu
    · rw [hq, hp]; simp; omega
    · have := countP_lt (fun x hx => hpq x (List.mem_cons_of_mem _ hx)) hu hq hp
      have := hpq a List.mem_cons_self
      cases h1 : p a <;> cases h2 : q a <;> simp_all <;> omega

open Classical in
/-- How many of the types are inside. -/
noncomputable def insideRank (E : Env) (S : List TId) (t : TId) : Nat := S.countP fun u => decide (Inside E u t)

theorem inside_trans {u v t : TId} (h : Inside E u v) (h' : PartOf E v t) : Inside E u t := by
  induction h with
  | one h => exact .step h (.one h')
  | step h _ ih => exact .step h (ih h')

theorem inside_rank (hS : FiniteTypes E S) {t u : TId} (ht : t ∈ S) (h : PartOf E u t) : insideRank E S u < insideRank E S t := by
  have hu := hS.parts t ht u h
  refine countP_lt (u := u) (fun x _ hx => ?_) hu (by simpa using Inside.one h) (by simpa using hS.grounded u hu)
  have hx : Inside E x u := by simpa using hx
  simpa using inside_trans hx h

end

variable {W : World} {S : List TId}

theorem promotes_in (hS : FiniteTypes W.E S) {t : TId} (ht : t ∈ S) : ClosedUnder W.U.isLetter W.U.isDigit W.E t S := by
  refine ⟨ht, fun u hu fs sf v ptr hfs hsf hp => ?_⟩
  have h1 := hS.fields u hu fs sf hfs hsf
  obtain ⟨-, -, -, -, ⟨-, rfl⟩ | ⟨-, hk, -⟩⟩ := hp
  · exact h1
  · exact hS.parts _ h1 _ (.ptr hk)

/-- Generation ends on finite types. -/
theorem finite_fit (hU : TablesOk W.U.isLetter W.U.isDigit) (hsort : SortOk W.sort) (hS : FiniteTypes W.E S) (hf : S.length + 2 ≤ W.tfuel) :
    Fit W S (insideRank W.E S) where
  bound t _ := by
    have : insideRank W.E S t ≤ S.length := List.countP_le_length
    omega
  parts t ht u hu := ⟨hS.parts t ht u hu, inside_rank hS ht hu⟩
  fields t ht hst := by
    have hT := promotes_in hS ht
    obtain ⟨l, hl⟩ : ∃ l, structFields W.E W.U W.grow W.sort W.tfuel t = some l := by
      obtain ⟨flds, hb⟩ := bfs_terminates hU hT W.grow W.tfuel 0 [] _ _ (init_inv W.E W.U t) (by simpa using hf)
      unfold structFields
      rw [hb]
      exact ⟨_, rfl⟩
    refine ⟨l, hl, fun f hfl => ?_⟩
    obtain ⟨log, flds, hb, hm, -, -⟩ := structFields_sel hsort hl
    obtain ⟨s, hs, i, sf, r, hi, hp⟩ := recorded_promoted hU hb (selected_mem ((hm f).mp hfl))
    refine ⟨sf.typ, promoted_type hst hp, ?_⟩
    obtain ⟨fs, hfs, hi⟩ := hp.decl
    exact hS.fields _ (pathN_closed hU hT (hb.path s hs)) fs sf hfs (List.mem_of_getElem? hi)

/-! ## Instructions -/

/-- Nesting of an instruction up to the structs in it. -/
def depthI : Instr → Nat
  | .quoted i | .nilText i | .inline i | .slice i _ | .array i _ _ _ | .ptr i => depthI i + 1
  | .map _ k v => max (depthI k) (depthI v) + 1
  | _ => 0

/-- The structs in an instruction are of the types. -/
def StructsIn (E : Env) (S : List TId) : Instr → Prop
  | .quoted i | .nilText i | .inline i | .slice i _ | .array i _ _ _ | .ptr i => StructsIn E S i
  | .map _ k v => StructsIn E S k ∧ StructsIn E S v
  | .struct t _ => t ∈ S ∧ IsStruct E t
  | _ => True

theorem newInstruction_in {rk : TId → Nat} (hp : ∀ t ∈ S, ∀ u, PartOf W.E u t → u ∈ S ∧ rk u < rk t) : ∀ (k : Nat) (t : TId) (ca q : Bool), t ∈ S → rk t < k →
    ∃ i, newInstruction W.E k t ca q = some i ∧ depthI i ≤ 3 * k ∧ StructsIn W.E S i
  | 0, _, _, _, _, h => by omega
  | k + 1, t, ca, q, ht, hk => by
    have ih := newInstruction_in hp k
    have sub : ∀ {u : TId}, PartOf W.E u t → u ∈ S ∧ rk u < k := fun h => by
      obtain ⟨h1, h2⟩ := hp t ht _ h; exact ⟨h1, by omega⟩
    simp only [newInstruction]
    cases hg : newGoTypeInstr W.E t with
    | some i =>
      simp only [newGoTypeInstr, Option.map_eq_some_iff] at hg
      obtain ⟨s, -, rfl⟩ := hg
      exact ⟨_, rfl, by simp [depthI], trivial⟩
    | none =>
    cases hm : newMarshalerTypeInstr W.E t ca with
    | some i =>
      simp only [newMarshalerTypeInstr] at hm
      repeat' split at hm
      all_goals first | (cases hm; exact ⟨_, rfl, by simp [depthI], trivial⟩) | cases hm
    | none =>
    cases hb : newBasicTypeInstr (W.E t).kind q with
    | some i =>
      refine ⟨i, rfl, ?_⟩
      generalize (W.E t).kind = kd at hb
      cases kd <;> simp [newBasicTypeInstr] at hb <;> cases q <;> simp at hb <;> subst hb <;> exact ⟨by simp [depthI] <;> omega, trivial⟩
    | none =>
      simp only
      cases hkd : (W.E t).kind with
      | iface n => exact ⟨_, rfl, by simp [depthI], trivial⟩
      | struct fs => exact ⟨_, rfl, by simp [depthI], ht, fs, hkd⟩
      | map kt et =>
        simp only
        split
        · exact ⟨_, rfl, by simp [depthI], trivial⟩
        · obtain ⟨iv, h1, h2, h3⟩ := ih et false false (sub (.val hkd)).1 (sub (.val hkd)).2
          have hkey : ∃ ik, (if isStringK (W.E kt).kind then some Instr.string else newInstruction W.E k kt false false) = some ik ∧ depthI ik ≤ 3 * k ∧ StructsIn W.E S ik := by
            split
            · exact ⟨_, rfl, by simp [depthI], trivial⟩
            · exact ih kt false false (sub (.key hkd)).1 (sub (.key hkd)).2
          obtain ⟨ik, k1, k2, k3⟩ := hkey
          rw [k1, h1]
          refine ⟨_, rfl, ?_, ?_, h3⟩
          · simp only [depthI, wrapKey]
            split <;> split <;> (try simp only [depthI]) <;> omega
          · simp only [wrapKey]
            split <;> split <;> exact k3
      | slice e =>
        simp only
        split
        · exact ⟨_, rfl, by simp [depthI], trivial⟩
        · obtain ⟨i, h1, h2, h3⟩ := ih e true false (sub (.slice hkd)).1 (sub (.slice hkd)).2
          exact ⟨.slice i (W.E e).size, by rw [h1]; rfl, by simp only [depthI]; omega, h3⟩
      | array n e =>
        obtain ⟨i, h1, h2, h3⟩ := ih e ca false (sub (.array hkd)).1 (sub (.array hkd)).2
        exact ⟨.array i (W.E e).size n (isByteElem W.E e), by simp only [h1]; rfl, by simp only [depthI]; omega, h3⟩
      | ptr e =>
        obtain ⟨i, h1, h2, h3⟩ := ih e true q (sub (.ptr hkd)).1 (sub (.ptr hkd)).2
        exact ⟨.ptr i, by simp only [h1]; rfl, by simp only [depthI]; omega, h3⟩
      | _ => exact ⟨_, rfl, by simp [depthI], trivial⟩

variable {rk : TId → Nat}

theorem instrFor_in (fit : Fit W S rk) {t : TId} (ht : t ∈ S) :
    ∃ i, instrFor W.E W.tfuel t = some i ∧ depthI i ≤ 3 * W.tfuel + 1 ∧ StructsIn W.E S i := by
  obtain ⟨i, h1, h2, h3⟩ := newInstruction_in fit.parts W.tfuel t (isPtrK (W.E t).kind) false ht (fit.bound t ht)
  refine ⟨_, by simp only [instrFor, h1]; rfl, ?_⟩
  split
  · exact ⟨by simp only [depthI]; omega, h3⟩
  · exact ⟨by omega, h3⟩

theorem mapM_in {α β : Type} {f : α → Option β} {P : β → Prop} : ∀ {l : List α}, (∀ a ∈ l, ∃ b, f a = some b ∧ P b) → ∃ l', l.mapM f = some l' ∧ ∀ b ∈ l', P b
  | [], _ => ⟨[], rfl, by simp⟩
  | a :: l, h => by
    obtain ⟨b, h1, h2⟩ := h a List.mem_cons_self
    obtain ⟨l', h3, h4⟩ := mapM_in fun a ha => h a (List.mem_cons_of_mem _ ha)
    refine ⟨b :: l', by simp only [List.mapM_cons, h1, h3]; rfl, fun x hx => ?_⟩
    rcases List.mem_cons.mp hx with rfl | hx
    · exact h2
    · exact h4 x hx

theorem structFields_in (fit : Fit W S rk) {t : TId} (ca : Bool) (ht : t ∈ S) (hs : IsStruct W.E t) :
    ∃ l, structFieldsInstr W.E W.U W.grow W.sort W.tfuel t ca = some l ∧ ∀ f ∈ l, depthI f.instr ≤ 3 * W.tfuel + 1 ∧ StructsIn W.E S f.instr := by
  obtain ⟨flds, h1, h2⟩ := fit.fields t ht hs
  simp only [structFieldsInstr, h1]
  refine mapM_in fun f hf => ?_
  obtain ⟨u, h3, h4⟩ := h2 f hf
  simp only [newFieldInstr, h3]
  obtain ⟨i, h5, h6, h7⟩ := newInstruction_in fit.parts W.tfuel u ca (f.quoted && isBasicK (W.E (derefOnce W.E u)).kind) h4 (fit.bound u h4)
  rw [h5]
  exact ⟨_, rfl, by simp only; omega, h7⟩

/-! ## Values -/

mutual
/-- The dynamic types in the value are among those. -/
def ValIn (S : List TId) : Val → Prop
  | .ptr v => ValIn S v
  | .iface t v => t ∈ S ∧ ValIn S v
  | .slice vs => ValInL S vs
  | .array vs => ValInL S vs
  | .struct vs => ValInL S vs
  | .map kvs => ValInKV S kvs
  | .smap kvs => ValInKV S kvs
  | _ => True

def ValInL (S : List TId) : List Val → Prop
  | [] => True
  | v :: vs => ValIn S v ∧ ValInL S vs

def ValInKV (S : List TId) : List (Val × Val) → Prop
  | [] => True
  | (k, v) :: t => (ValIn S k ∧ ValIn S v) ∧ ValInKV S t
end

theorem valInL_iff : ∀ {vs : List Val}, ValInL S vs ↔ ∀ v ∈ vs, ValIn S v
  | [] => by simp [ValInL]
  | v :: vs => by simp [ValInL, valInL_iff (vs := vs)]

theorem valInKV_iff : ∀ {kvs : List (Val × Val)}, ValInKV S kvs ↔ ∀ e ∈ kvs, ValIn S e.1 ∧ ValIn S e.2
  | [] => by simp [ValInKV]
  | (k, v) :: vs => by simp [ValInKV, valInKV_iff (kvs := vs)]

theorem depthL_mem : ∀ {vs : List Val} {v : Val}, v ∈ vs → depthV v ≤ depthL vs
  | v :: vs, x, h => by
    rcases List.mem_cons.mp h with rfl | h
    · simp only [depthL]; omega
    · have := depthL_mem h
      simp only [depthL]; omega

theorem depthKV_mem : ∀ {kvs : List (Val × Val)} {e : Val × Val}, e ∈ kvs → depthV e.1 ≤ depthKV kvs ∧ depthV e.2 ≤ depthKV kvs
  | (k, v) :: t, x, h => by
    rcases List.mem_cons.mp h with rfl | h
    · simp only [depthKV]; omega
    · have := depthKV_mem h
      simp only [depthKV]; omega

mutual
theorem repr_in {m : Mem} (hm : HeapIn S m) : ∀ {t : TId} {p : Loc} {v : Val}, Repr W.E m t p v → ValIn S v
  | _, _, _, .bool _ _ => trivial
  | _, _, _, .int _ _ => trivial
  | _, _, _, .float _ _ => trivial
  | _, _, _, .str _ _ => trivial
  | _, _, _, .time _ _ => trivial
  | _, _, _, .smap (es := es) (kvs := kvs) _ hat hl hk hv => by
    simp only [ValIn]
    rw [valInKV_iff]
    intro kv hkv
    obtain ⟨i, hi⟩ := List.getElem?_of_mem hkv
    have hlt := (List.getElem?_eq_some_iff.mp hi).1
    have hes := List.getElem?_eq_getElem (l := es) (i := i) (by omega)
    have hd := hm.smap _ _ hat _ (List.mem_of_getElem? hes)
    exact ⟨reprE_in hm hd.1 (hk i _ kv hes hi), reprE_in hm hd.2 (hv i _ kv hes hi)⟩
  | _, _, _, .nilPtr _ _ => trivial
  | _, _, _, .ptr _ _ _ h => by have := repr_in hm h; simpa only [ValIn] using this
  | _, _, _, .nilMap _ _ _ => trivial
  | _, _, _, .map (es := es) (kvs := kvs) _ _ _ _ _ hl hk hv => by
    simp only [ValIn]
    rw [valInKV_iff]
    intro kv hkv
    obtain ⟨i, hi⟩ := List.getElem?_of_mem hkv
    have hlt := (List.getElem?_eq_some_iff.mp hi).1
    have hes := List.getElem?_eq_getElem (l := es) (i := i) (by omega)
    exact ⟨repr_in hm (hk i _ kv hes hi), repr_in hm (hv i _ kv hes hi)⟩
  | _, _, _, .nilSlice _ _ => trivial
  | _, _, _, .slice _ _ _ h => by
    simp only [ValIn]
    rw [valInL_iff]
    intro v hv
    obtain ⟨i, hi⟩ := List.getElem?_of_mem hv
    exact repr_in hm (h i v hi)
  | _, _, _, .array _ _ h => by
    simp only [ValIn]
    rw [valInL_iff]
    intro v hv
    obtain ⟨i, hi⟩ := List.getElem?_of_mem hv
    exact repr_in hm (h i v hi)
  | _, _, _, .struct (fs := fs) _ _ _ hl h => by
    simp only [ValIn]
    rw [valInL_iff]
    intro v hv
    obtain ⟨i, hi⟩ := List.getElem?_of_mem hv
    have hlt := (List.getElem?_eq_some_iff.mp hi).1
    exact repr_in hm (h i _ v (List.getElem?_eq_getElem (l := fs) (i := i) (by omega)) hi)
  | _, _, _, .eface _ hat h => reprE_in hm (hm.eface _ _ hat) h
  | _, _, _, .iface _ hat _ h => reprE_in hm (hm.iface _ _ hat) h
  | _, _, _, .opaque _ _ => trivial

theorem reprE_in {m : Mem} (hm : HeapIn S m) : ∀ {x : Eface} {v : Val}, DynIn S x → ReprE W.E m x v → ValIn S v
  | _, _, _, .nil => trivial
  | _, _, hd, .direct _ h => ⟨hd _ _ rfl, repr_in hm h⟩
  | _, _, hd, .indirect _ h => ⟨hd _ _ rfl, repr_in hm h⟩
end

end Jettison.Proofs
