import Verif.Props.Sample
import Verif.Proofs.Refine

/-! # Checking that a memory holds a value -/

namespace Jettison.Props
open Jettison Jettison.Spec Jettison.Model Jettison.Proofs

/-- Some method is available. -/
def anyMeth (m : MethSet) : Bool := m.appendCtx || m.append || m.json || m.text

theorem anyMeth_iff (m : MethSet) : anyMeth m = true ↔ MethSet.any m := by simp [anyMeth, MethSet.any, or_assoc]

/-- The type may be direct; structs and arrays of one component are followed `n` deep. -/
def directB (E : Env) : Nat → TId → Bool
  | 0, _ => true
  | n + 1, t =>
    match (E t).kind with
    | .ptr _ | .map _ _ => true
    | .other => (E t).word
    | .struct [f] => directB E n f.typ
    | .array 1 e => directB E n e
    | _ => false

theorem directB_complete {E : Env} {t : TId} (h : Direct E t) : ∀ n, directB E n t = true := by
  induction h with
  | ptr hk | map hk => intro n; cases n <;> simp [directB, hk]
  | word hk hw => intro n; cases n <;> simp [directB, hk, hw]
  | struct hk _ ih | array hk _ ih => intro n; cases n <;> simp [directB, hk, ih]

/-- A test for `Bare`. -/
def bareB (E : Env) (t : TId) : Bool := !anyMeth (E t).meths || !directB E 10 t

theorem bareB_sound {E : Env} {t : TId} (h : bareB E t = true) : Bare E t := by
  intro hm hd
  have h1 := (anyMeth_iff _).mpr hm
  have h2 := directB_complete hd 10
  simp [bareB, h1, h2] at h

mutual
/-- A test for `Repr`; `dir` tells the types the library takes for direct. -/
def checkRepr (E : Env) (dir : TId → Bool) (m : Mem) : Nat → TId → Loc → Val → Bool
  | 0, _, _, _ => false
  | n + 1, t, p, v =>
    match v with
    | .time x => (E t).special = some .time && m.at p = some (.time x)
    | .smap kvs => (E t).special = some .syncMap &&
      match m.at p with
      | some (.smap es) => es.length = kvs.length && (es.zip kvs).all fun x => checkE E dir m n x.1.1 x.2.1 && checkE E dir m n x.1.2 x.2.2
      | _ => false
    | v =>
      match (E t).kind, v with
      | .bool, .bool b => m.at p = some (.bool b)
      | .int k, .int x => x.kind = k && m.at p = some (.int x)
      | .float w, .float w' b => w = w' && m.at p = some (.float w b)
      | .string, .str b => m.at p = some (.str b)
      | .ptr _, .nil => m.at p = some (.word 0)
      | .ptr e, .ptr v => match m.at p with | some (.word a) => a ≠ 0 && checkRepr E dir m n e (.heap a) v | _ => false
      | .map _ _, .nil => bareB E t && m.at p = some (.word 0)
      | .map k e, .map kvs => bareB E t &&
        match m.at p with
        | some (.word a) => a ≠ 0 &&
          match m.at (.heap a) with
          | some (.hmap es) => es.length = kvs.length &&
            (es.zip kvs).all fun x => checkRepr E dir m n k (.heap x.1.1) x.2.1 && checkRepr E dir m n e (.heap x.1.2) x.2.2
          | _ => false
        | _ => false
      | .slice _, .nil => m.at p = some (.slice 0 0)
      | .slice e, .slice vs =>
        match m.at p with
        | some (.slice d k) => d ≠ 0 && k = vs.length && (vs.zipIdx).all fun x => checkRepr E dir m n e (.heap (d + x.2 * (E e).size)) x.1
        | _ => false
      | .array k e, .array vs => bareB E t && k = vs.length && (vs.zipIdx).all fun x => checkRepr E dir m n e (p.add (x.2 * (E e).size)) x.1
      | .struct fs, .struct vs => bareB E t && (E t).special = none && fs.length = vs.length &&
        (fs.zip vs).all fun x => checkRepr E dir m n x.1.typ (p.add x.1.offset) x.2
      | .iface 0, v => match m.at p with | some (.eface x) => checkE E dir m n x v | _ => false
      | .iface (_ + 1), v => match m.at p with | some (.iface x) => (x.isNone || anyMeth (E t).meths) && checkE E dir m n x v | _ => false
      | .other, .opaque => bareB E t
      | _, _ => false

/-- The same for `ReprE`. -/
def checkE (E : Env) (dir : TId → Bool) (m : Mem) : Nat → Eface → Val → Bool
  | 0, _, _ => false
  | n + 1, x, v =>
    match x, v with
    | none, .nil => true
    | some (t, w), .iface t' v => t = t' && if dir t then checkRepr E dir m n t (.tmp w) v else !directB E 10 t && w ≠ 0 && checkRepr E dir m n t (.heap w) v
    | _, _ => false
end

theorem zip_get {α β : Type} {P : α × β → Bool} {l : List α} {l' : List β} (h : ((l.zip l').all P) = true) {i : Nat} {a : α} {b : β}
    (ha : l[i]? = some a) (hb : l'[i]? = some b) : P (a, b) = true := by
  rw [List.all_eq_true] at h
  exact h _ (List.mem_of_getElem? (i := i) (by rw [List.getElem?_zip_eq_some]; exact ⟨ha, hb⟩))

theorem zipIdx_get {α : Type} {P : α × Nat → Bool} {l : List α} (h : (l.zipIdx.all P) = true) {i : Nat} {a : α}
    (ha : l[i]? = some a) : P (a, i) = true := by
  rw [List.all_eq_true] at h
  exact h _ (by rw [List.mem_zipIdx_iff_getElem?]; exact ha)

theorem checkRepr_sound {E : Env} {dir : TId → Bool} {m : Mem} (hd : ∀ t, dir t = true → Inlined E t) : ∀ n,
    (∀ t p v, checkRepr E dir m n t p v = true → Repr E m t p v) ∧ (∀ x v, checkE E dir m n x v = true → ReprE E m x v)
  | 0 => ⟨fun _ _ _ h => by simp [checkRepr] at h, fun _ _ h => by simp [checkE] at h⟩
  | n + 1 => by
    obtain ⟨ih, ihE⟩ := checkRepr_sound hd n
    constructor
    · intro t p v h
      rw [checkRepr.eq_def] at h
      simp only at h
      split at h
      · simp only [Bool.and_eq_true, decide_eq_true_eq] at h; exact .time h.1 h.2
      · simp only [Bool.and_eq_true, decide_eq_true_eq] at h
        obtain ⟨h1, h2⟩ := h
        split at h2
        · next hat =>
          simp only [Bool.and_eq_true, decide_eq_true_eq] at h2
          refine .smap h1 hat h2.1 ?_ ?_
          · intro i e kv he hk
            have := zip_get h2.2 he hk
            simp only [Bool.and_eq_true] at this
            exact ihE _ _ this.1
          · intro i e kv he hk
            have := zip_get h2.2 he hk
            simp only [Bool.and_eq_true] at this
            exact ihE _ _ this.2
        · simp at h2
      · rename_i a1 a2
        clear a1 a2
        split at h
        · next hk => exact .bool hk (by simpa using h)
        · next hk => simp only [Bool.and_eq_true, decide_eq_true_eq] at h; exact .int (by rw [hk, h.1]) h.2
        · next hk => simp only [Bool.and_eq_true, decide_eq_true_eq] at h; obtain ⟨rfl, h⟩ := h; exact .float hk h
        · next hk => exact .str hk (by simpa using h)
        · next hk => exact .nilPtr hk (by simpa using h)
        · next hk =>
          split at h
          · next hat => simp only [Bool.and_eq_true, decide_eq_true_eq] at h; exact .ptr hk hat (by simpa using h.1) (ih _ _ _ h.2)
          · simp at h
        · next hk => simp only [Bool.and_eq_true, decide_eq_true_eq] at h; exact .nilMap hk (bareB_sound h.1) h.2
        · next hk =>
          rw [Bool.and_eq_true] at h
          obtain ⟨hb, h⟩ := h
          split at h
          · next hat =>
            simp only [Bool.and_eq_true, decide_eq_true_eq] at h
            obtain ⟨h1, h2⟩ := h
            split at h2
            · next hat2 =>
              simp only [Bool.and_eq_true, decide_eq_true_eq] at h2
              refine .map hk (bareB_sound hb) hat (by simpa using h1) hat2 h2.1 ?_ ?_
              · intro i e kv he hk
                have := zip_get h2.2 he hk
                simp only [Bool.and_eq_true] at this
                exact ih _ _ _ this.1
              · intro i e kv he hk
                have := zip_get h2.2 he hk
                simp only [Bool.and_eq_true] at this
                exact ih _ _ _ this.2
            · simp at h2
          · simp at h
        · next hk => exact .nilSlice hk (by simpa using h)
        · next hk =>
          split at h
          · next hat =>
            simp only [Bool.and_eq_true, decide_eq_true_eq] at h
            obtain ⟨⟨h1, rfl⟩, h2⟩ := h
            exact .slice hk hat (by simpa using h1) (fun i v hv => ih _ _ _ (zipIdx_get h2 hv))
          · simp at h
        · next hk =>
          simp only [Bool.and_eq_true, decide_eq_true_eq] at h
          obtain ⟨⟨hb, rfl⟩, h2⟩ := h
          exact .array hk (bareB_sound hb) (fun i v hv => ih _ _ _ (zipIdx_get h2 hv))
        · next hk =>
          simp only [Bool.and_eq_true, decide_eq_true_eq] at h
          obtain ⟨⟨⟨hb, h1⟩, h2⟩, h3⟩ := h
          exact .struct hk h1 (bareB_sound hb) h2 (fun i f v hf hv => ih _ _ _ (zip_get h3 hf hv))
        · next hk =>
          split at h
          · next hat => exact .eface hk hat (ihE _ _ h)
          · simp at h
        · next hk =>
          split at h
          · next x hat =>
            rw [Bool.and_eq_true] at h
            refine .iface hk hat (fun hx => ?_) (ihE _ _ h.2)
            cases x with
            | none => exact absurd rfl hx
            | some x => exact (anyMeth_iff _).mp (by simpa using h.1)
          · simp at h
        · next hk => exact .opaque hk (bareB_sound h)
        · simp at h
    · intro x v h
      rw [checkE.eq_def] at h
      simp only at h
      split at h
      · exact .nil
      · simp only [Bool.and_eq_true, decide_eq_true_eq] at h
        obtain ⟨rfl, h⟩ := h
        split at h
        · next hdir => exact .direct (hd _ hdir) (ih _ _ _ h)
        · next hdir =>
          simp only [Bool.and_eq_true, decide_eq_true_eq] at h
          refine .indirect (.inl ⟨fun hc => ?_, by simpa using h.1.2⟩) (ih _ _ _ h.2)
          simp [directB_complete hc 10] at h
      · simp at h

/-- The test for the sample types. -/
theorem sample_repr {m : Mem} {x : Eface} {v : Val} (n : Nat) (h : checkE sampleE (isInlined sampleE 10) m n x v = true) :
    ReprE sampleE m x v := by
  exact (checkRepr_sound (fun t => isInlined_sound 10 t) n).2 x v h

end Jettison.Props
