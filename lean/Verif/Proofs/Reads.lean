import Verif.Proofs.Typed

/-! # Reads of memory that holds a value -/

namespace Jettison.Proofs
open Jettison Jettison.Model Jettison.Spec

variable {E : Env} {m : Mem} {pt : TId → TId} {t : TId} {p : Loc} {v : Val}

theorem repr_bool (G : GoTypes E pt) (hk : (E t).kind = .bool) (h : Repr E m t p v) :
    ∃ b, v = .bool b ∧ m.at p = some (.bool b) := by
  cases h with
  | bool _ h => exact ⟨_, rfl, h⟩
  | time hs _ => obtain ⟨_, h, _⟩ := G.time _ hs; simp [hk] at h
  | smap hs => obtain ⟨_, h, _⟩ := G.syncMap _ hs; simp [hk] at h
  | _ => simp_all

theorem repr_int {k : IntK} (G : GoTypes E pt) (hk : (E t).kind = .int k) (h : Repr E m t p v) :
    ∃ x, v = .int x ∧ x.kind = k ∧ m.at p = some (.int x) := by
  cases h with
  | int hk' h => rw [hk] at hk'; simp at hk'; exact ⟨_, rfl, hk'.symm, h⟩
  | time hs _ => obtain ⟨_, h, _⟩ := G.time _ hs; simp [hk] at h
  | smap hs => obtain ⟨_, h, _⟩ := G.syncMap _ hs; simp [hk] at h
  | _ => simp_all

theorem repr_float {w : FWidth} (G : GoTypes E pt) (hk : (E t).kind = .float w) (h : Repr E m t p v) :
    ∃ x, v = .float w x ∧ m.at p = some (.float w x) := by
  cases h with
  | float hk' h => rw [hk] at hk'; simp at hk'; subst hk'; exact ⟨_, rfl, h⟩
  | time hs _ => obtain ⟨_, h, _⟩ := G.time _ hs; simp [hk] at h
  | smap hs => obtain ⟨_, h, _⟩ := G.syncMap _ hs; simp [hk] at h
  | _ => simp_all

theorem repr_str (G : GoTypes E pt) (hk : (E t).kind = .string) (h : Repr E m t p v) :
    ∃ x, v = .str x ∧ m.at p = some (.str x) := by
  cases h with
  | str hk' h => exact ⟨_, rfl, h⟩
  | time hs _ => obtain ⟨_, h, _⟩ := G.time _ hs; simp [hk] at h
  | smap hs => obtain ⟨_, h, _⟩ := G.syncMap _ hs; simp [hk] at h
  | _ => simp_all

theorem repr_ptr {e : TId} (G : GoTypes E pt) (hk : (E t).kind = .ptr e) (h : Repr E m t p v) :
    (v = .nil ∧ m.at p = some (.word 0)) ∨
      ∃ a x, v = .ptr x ∧ m.at p = some (.word a) ∧ a ≠ 0 ∧ Repr E m e (.heap a) x := by
  cases h with
  | nilPtr _ h => exact .inl ⟨rfl, h⟩
  | ptr hk' h1 h2 h3 => rw [hk] at hk'; simp at hk'; subst hk'; exact .inr ⟨_, _, rfl, h1, h2, h3⟩
  | time hs _ => obtain ⟨_, h, _⟩ := G.time _ hs; simp [hk] at h
  | smap hs => obtain ⟨_, h, _⟩ := G.syncMap _ hs; simp [hk] at h
  | _ => simp_all

theorem repr_map {k e : TId} (G : GoTypes E pt) (hk : (E t).kind = .map k e) (h : Repr E m t p v) :
    (v = .nil ∧ m.at p = some (.word 0)) ∨
      ∃ a es kvs, v = .map kvs ∧ m.at p = some (.word a) ∧ a ≠ 0 ∧ m.at (.heap a) = some (.hmap es) ∧
        es.length = kvs.length ∧
        (∀ (i : Nat) x kv, es[i]? = some x → kvs[i]? = some kv → Repr E m k (.heap x.1) kv.1) ∧
        (∀ (i : Nat) x kv, es[i]? = some x → kvs[i]? = some kv → Repr E m e (.heap x.2) kv.2) := by
  cases h with
  | nilMap _ _ h => exact .inl ⟨rfl, h⟩
  | map hk' _ h1 h2 h3 h4 h5 h6 =>
    rw [hk] at hk'; simp at hk'; obtain ⟨rfl, rfl⟩ := hk'
    exact .inr ⟨_, _, _, rfl, h1, h2, h3, h4, h5, h6⟩
  | time hs _ => obtain ⟨_, h, _⟩ := G.time _ hs; simp [hk] at h
  | smap hs => obtain ⟨_, h, _⟩ := G.syncMap _ hs; simp [hk] at h
  | _ => simp_all

theorem repr_slice {e : TId} (G : GoTypes E pt) (hk : (E t).kind = .slice e) (h : Repr E m t p v) :
    (v = .nil ∧ m.at p = some (.slice 0 0)) ∨
      ∃ d vs, v = .slice vs ∧ m.at p = some (.slice d vs.length) ∧ d ≠ 0 ∧
        (∀ (i : Nat) x, vs[i]? = some x → Repr E m e (.heap (d + i * (E e).size)) x) := by
  cases h with
  | nilSlice _ h => exact .inl ⟨rfl, h⟩
  | slice hk' h1 h2 h3 =>
    rw [hk] at hk'; simp at hk'; subst hk'
    exact .inr ⟨_, _, rfl, h1, h2, h3⟩
  | time hs _ => obtain ⟨_, h, _⟩ := G.time _ hs; simp [hk] at h
  | smap hs => obtain ⟨_, h, _⟩ := G.syncMap _ hs; simp [hk] at h
  | _ => simp_all

theorem repr_array {n : Nat} {e : TId} (G : GoTypes E pt) (hk : (E t).kind = .array n e) (h : Repr E m t p v) :
    ∃ vs, v = .array vs ∧ vs.length = n ∧
        (∀ (i : Nat) x, vs[i]? = some x → Repr E m e (p.add (i * (E e).size)) x) := by
  cases h with
  | array hk' _ h =>
    rw [hk] at hk'; simp at hk'; obtain ⟨rfl, rfl⟩ := hk'
    exact ⟨_, rfl, rfl, h⟩
  | time hs _ => obtain ⟨_, h, _⟩ := G.time _ hs; simp [hk] at h
  | smap hs => obtain ⟨_, h, _⟩ := G.syncMap _ hs; simp [hk] at h
  | _ => simp_all

theorem repr_struct {fs : List FieldDef} (hk : (E t).kind = .struct fs) (hs : (E t).special = none)
    (h : Repr E m t p v) :
    ∃ vs, v = .struct vs ∧ fs.length = vs.length ∧
        (∀ (i : Nat) f x, fs[i]? = some f → vs[i]? = some x → Repr E m f.typ (p.add f.offset) x) := by
  cases h with
  | struct hk' _ _ h1 h2 =>
    rw [hk] at hk'; simp at hk'; subst hk'
    exact ⟨_, rfl, h1, h2⟩
  | _ => simp_all

theorem repr_iface {n : Nat} (G : GoTypes E pt) (hk : (E t).kind = .iface n) (h : Repr E m t p v) :
    ∃ x, ((n = 0 ∧ m.at p = some (.eface x)) ∨ (n ≠ 0 ∧ m.at p = some (.iface x))) ∧ ReprE E m x v := by
  cases h with
  | eface hk' h1 h2 => rw [hk] at hk'; simp at hk'; exact ⟨_, .inl ⟨hk', h1⟩, h2⟩
  | iface hk' h1 _ h2 => rw [hk] at hk'; simp at hk'; exact ⟨_, .inr ⟨by omega, h1⟩, h2⟩
  | time hs _ => obtain ⟨_, h, _⟩ := G.time _ hs; simp [hk] at h
  | smap hs => obtain ⟨_, h, _⟩ := G.syncMap _ hs; simp [hk] at h
  | _ => simp_all

/-- An interface type without marshaler methods, of a value that can be read, is read as an empty interface. -/
theorem repr_eface {n : Nat} (G : GoTypes E pt) (hk : (E t).kind = .iface n) (hm : ¬ MethSet.any (E t).meths) (h : Repr E m t p v) :
    ∃ x, readEface m p = some x ∧ firstWordNil m p = some x.isNone ∧ ReprE E m x v := by
  cases h with
  | eface hk' h1 h2 => exact ⟨_, by simp [readEface, h1], by simp [firstWordNil, h1], h2⟩
  | iface hk' h1 hany h2 =>
    cases h2 with
    | nil => exact ⟨none, by simp [readEface, h1], by simp [firstWordNil, h1], .nil⟩
    | direct | indirect => exact absurd (hany (by simp)) hm
  | time hs _ => obtain ⟨_, h, _⟩ := G.time _ hs; simp [hk] at h
  | smap hs => obtain ⟨_, h, _⟩ := G.syncMap _ hs; simp [hk] at h
  | _ => simp_all

theorem repr_time (G : GoTypes E pt) (hs : (E t).special = some .time) (h : Repr E m t p v) :
    ∃ x, v = .time x ∧ m.at p = some (.time x) := by
  obtain ⟨fs, hk, _⟩ := G.time _ hs
  cases h with
  | time _ h => exact ⟨_, rfl, h⟩
  | _ => simp_all

theorem repr_smap (G : GoTypes E pt) (hs : (E t).special = some .syncMap) (h : Repr E m t p v) :
    ∃ es kvs, v = .smap kvs ∧ m.at p = some (.smap es) ∧ es.length = kvs.length ∧
      (∀ (i : Nat) e kv, es[i]? = some e → kvs[i]? = some kv → ReprE E m e.1 kv.1) ∧
      (∀ (i : Nat) e kv, es[i]? = some e → kvs[i]? = some kv → ReprE E m e.2 kv.2) := by
  obtain ⟨fs, hk, _⟩ := G.syncMap _ hs
  cases h with
  | smap _ h1 h2 h3 h4 => exact ⟨_, _, rfl, h1, h2, h3, h4⟩
  | _ => simp_all

theorem loc_add_add (p : Loc) (a b : Nat) (h : p.add a ≠ .heap 0 ∨ ∃ x, p = .heap x) :
    (p.add a).add b = p.add (a + b) := by
  cases p with
  | heap x => simp [Loc.add, Nat.add_assoc]
  | tmp w =>
    simp only [Loc.add] at h ⊢
    split at h <;> simp_all [Loc.add]

/-- The bytes of an array of bytes. -/
theorem readBytesAt_eq (hk : (E t).kind = .int .uint8) (G : GoTypes E pt) : ∀ (vs : List Val) (p : Loc),
    (∀ (i : Nat) x, vs[i]? = some x → Repr E m t (p.add (i * 1)) x) → readBytesAt m vs.length p = bytesOf vs
  | [], p, _ => rfl
  | v :: vs, p, h => by
    have h0 := h 0 v (by simp)
    obtain ⟨x, rfl, hx, hat⟩ := repr_int G hk h0
    have hp0 : p.add (0 * 1) = p := by cases p <;> simp [Loc.add]
    rw [hp0] at hat
    cases x <;> simp [IntVal.kind] at hx
    next b =>
    simp only [List.length_cons, readBytesAt, hat, bytesOf]
    cases p with
    | tmp w => simp [Mem.at] at hat
    | heap a =>
      rw [readBytesAt_eq hk G vs]
      intro i x hx
      have := h (i + 1) x (by simpa using hx)
      simpa [Loc.add, Nat.add_assoc, Nat.add_comm 1 i] using this

theorem readByteSlice_eq {e : TId} (G : GoTypes E pt) (hk : (E t).kind = .slice e) (he : (E e).kind = .int .uint8)
    (h : Repr E m t p v) : readByteSlice m p = byteSliceOf v := by
  rcases repr_slice G hk h with ⟨rfl, hat⟩ | ⟨d, vs, rfl, hat, hd, hvs⟩
  · simp [readByteSlice, readSlice, hat, byteSliceOf]
  · simp only [readByteSlice, readSlice, hat, hd, if_false, byteSliceOf]
    rw [readBytesAt_eq he G vs (.heap d)]
    intro i x hx
    have := hvs i x hx
    rw [G.byteSize _ he] at this
    simpa [Loc.add] using this

theorem firstWordNil_eq (G : GoTypes E pt) (hk : isNilable (E t).kind = true) (h : Repr E m t p v) :
    firstWordNil m p = isNilV v := by
  cases hkk : (E t).kind with
  | ptr e =>
    rcases repr_ptr G hkk h with ⟨rfl, hat⟩ | ⟨a, x, rfl, hat, ha, _⟩
    · simp [firstWordNil, hat, isNilV]
    · simp [firstWordNil, hat, isNilV, ha]
  | map k e =>
    rcases repr_map G hkk h with ⟨rfl, hat⟩ | ⟨a, _, _, rfl, hat, ha, _⟩
    · simp [firstWordNil, hat, isNilV]
    · simp [firstWordNil, hat, isNilV, ha]
  | slice e =>
    rcases repr_slice G hkk h with ⟨rfl, hat⟩ | ⟨a, _, rfl, hat, ha, _⟩
    · simp [firstWordNil, hat, isNilV]
    · simp [firstWordNil, hat, isNilV, ha]
  | iface n =>
    obtain ⟨x, hx, hr⟩ := repr_iface G hkk h
    have : firstWordNil m p = some x.isNone := by
      rcases hx with ⟨_, hx⟩ | ⟨_, hx⟩ <;> simp [firstWordNil, hx]
    rw [this]
    cases hr <;> simp [isNilV]
  | _ => simp [hkk, isNilable] at hk

theorem emptyFn_eq (G : GoTypes E pt) (h : Repr E m t p v) :
    (emptyFuncOf (E t).kind).eval m p = emptyV (emptyFuncOf (E t).kind) v := by
  cases hkk : (E t).kind with
  | bool => obtain ⟨b, rfl, hat⟩ := repr_bool G hkk h; simp [emptyFuncOf, EmptyFn.eval, readBool, hat, emptyV]
  | int k =>
    obtain ⟨b, rfl, hb, hat⟩ := repr_int G hkk h
    simp [emptyFuncOf, EmptyFn.eval, readInt, hat, emptyV, hb]
  | float w =>
    obtain ⟨b, rfl, hat⟩ := repr_float G hkk h
    simp [emptyFuncOf, EmptyFn.eval, readFloat, hat, emptyV]
  | string =>
    obtain ⟨b, rfl, hat⟩ := repr_str G hkk h
    simp [emptyFuncOf, EmptyFn.eval, readStr, hat, emptyV]
  | iface n =>
    have := firstWordNil_eq G (by rw [hkk]; rfl) h
    obtain ⟨x, hx, hr⟩ := repr_iface G hkk h
    simp only [emptyFuncOf, EmptyFn.eval, this]
    cases hr <;> simp [isNilV, emptyV]
  | struct fs => simp [emptyFuncOf, EmptyFn.eval, emptyV]
  | map k e =>
    rcases repr_map G hkk h with ⟨rfl, hat⟩ | ⟨a, es, kvs, rfl, hat, ha, hat2, hl, _⟩
    · simp [emptyFuncOf, EmptyFn.eval, readWord, hat, mapLen, emptyV]
    · simp [emptyFuncOf, EmptyFn.eval, readWord, hat, mapLen, emptyV, ha, readMap, hat2, hl]
  | slice e =>
    rcases repr_slice G hkk h with ⟨rfl, hat⟩ | ⟨a, vs, rfl, hat, ha, _⟩
    · simp [emptyFuncOf, EmptyFn.eval, readSlice, hat, emptyV]
    · simp [emptyFuncOf, EmptyFn.eval, readSlice, hat, emptyV]
  | array n e =>
    by_cases hn : n = 0 <;> simp [emptyFuncOf, hn, EmptyFn.eval, emptyV]
  | ptr e =>
    rcases repr_ptr G hkk h with ⟨rfl, hat⟩ | ⟨a, x, rfl, hat, ha, _⟩
    · simp [emptyFuncOf, EmptyFn.eval, readWord, hat, emptyV]
    · simp [emptyFuncOf, EmptyFn.eval, readWord, hat, emptyV, ha]
  | other => simp [emptyFuncOf, EmptyFn.eval, emptyV]

end Jettison.Proofs
