import Verif.Spec.Live
import Verif.Proofs.NoBad

/-! # What variables of known types hold -/

namespace Jettison.Proofs
open Jettison Jettison.Model Jettison.Spec

variable {E : Env} {m : Mem} {T : Places} {t : TId} {p : Loc} {pt : TId → TId}

theorem laid_bool (G : GoTypes E pt) (hk : (E t).kind = .bool) (h : Laid E m T t p) : ∃ b, m.at p = some (.bool b) := by
  cases h with
  | bool _ h => exact ⟨_, h⟩
  | time hs _ => obtain ⟨_, h, _⟩ := G.time _ hs; simp [hk] at h
  | smap hs => obtain ⟨_, h, _⟩ := G.syncMap _ hs; simp [hk] at h
  | _ => simp_all

theorem laid_int {k : IntK} (G : GoTypes E pt) (hk : (E t).kind = .int k) (h : Laid E m T t p) : ∃ x : IntVal, x.kind = k ∧ m.at p = some (.int x) := by
  cases h with
  | int hk' h => rw [hk] at hk'; simp at hk'; exact ⟨_, hk'.symm, h⟩
  | time hs _ => obtain ⟨_, h, _⟩ := G.time _ hs; simp [hk] at h
  | smap hs => obtain ⟨_, h, _⟩ := G.syncMap _ hs; simp [hk] at h
  | _ => simp_all

theorem laid_float {w : FWidth} (G : GoTypes E pt) (hk : (E t).kind = .float w) (h : Laid E m T t p) : ∃ x, m.at p = some (.float w x) := by
  cases h with
  | float hk' h => rw [hk] at hk'; simp at hk'; subst hk'; exact ⟨_, h⟩
  | time hs _ => obtain ⟨_, h, _⟩ := G.time _ hs; simp [hk] at h
  | smap hs => obtain ⟨_, h, _⟩ := G.syncMap _ hs; simp [hk] at h
  | _ => simp_all

theorem laid_str (G : GoTypes E pt) (hk : (E t).kind = .string) (h : Laid E m T t p) : ∃ x, m.at p = some (.str x) := by
  cases h with
  | str hk' h => exact ⟨_, h⟩
  | time hs _ => obtain ⟨_, h, _⟩ := G.time _ hs; simp [hk] at h
  | smap hs => obtain ⟨_, h, _⟩ := G.syncMap _ hs; simp [hk] at h
  | _ => simp_all

theorem laid_ptr {e : TId} (G : GoTypes E pt) (hk : (E t).kind = .ptr e) (h : Laid E m T t p) :
    ∃ a, m.at p = some (.word a) ∧ (a ≠ 0 → T.val e (.heap a)) := by
  cases h with
  | ptr hk' h1 h2 => rw [hk] at hk'; simp at hk'; subst hk'; exact ⟨_, h1, h2⟩
  | time hs _ => obtain ⟨_, h, _⟩ := G.time _ hs; simp [hk] at h
  | smap hs => obtain ⟨_, h, _⟩ := G.syncMap _ hs; simp [hk] at h
  | _ => simp_all

theorem laid_map {k e : TId} (G : GoTypes E pt) (hk : (E t).kind = .map k e) (h : Laid E m T t p) :
    ∃ a, m.at p = some (.word a) ∧ (a ≠ 0 → T.map k e a) := by
  cases h with
  | map hk' _ h1 h2 => rw [hk] at hk'; simp at hk'; obtain ⟨rfl, rfl⟩ := hk'; exact ⟨_, h1, h2⟩
  | time hs _ => obtain ⟨_, h, _⟩ := G.time _ hs; simp [hk] at h
  | smap hs => obtain ⟨_, h, _⟩ := G.syncMap _ hs; simp [hk] at h
  | _ => simp_all

theorem laid_slice {e : TId} (G : GoTypes E pt) (hk : (E t).kind = .slice e) (h : Laid E m T t p) :
    ∃ d n, m.at p = some (.slice d n) ∧ (d ≠ 0 → ∀ i, i < n → T.val e (.heap (d + i * (E e).size))) := by
  cases h with
  | nilSlice _ h => exact ⟨_, _, h, fun h => absurd rfl h⟩
  | slice hk' h1 h2 h3 => rw [hk] at hk'; simp at hk'; subst hk'; exact ⟨_, _, h1, fun _ => h3⟩
  | time hs _ => obtain ⟨_, h, _⟩ := G.time _ hs; simp [hk] at h
  | smap hs => obtain ⟨_, h, _⟩ := G.syncMap _ hs; simp [hk] at h
  | _ => simp_all

theorem laid_array {n : Nat} {e : TId} (G : GoTypes E pt) (hk : (E t).kind = .array n e) (h : Laid E m T t p) :
    ∀ i, i < n → T.val e (p.add (i * (E e).size)) := by
  cases h with
  | array hk' _ h1 => rw [hk] at hk'; simp at hk'; obtain ⟨rfl, rfl⟩ := hk'; exact h1
  | time hs _ => obtain ⟨_, h, _⟩ := G.time _ hs; simp [hk] at h
  | smap hs => obtain ⟨_, h, _⟩ := G.syncMap _ hs; simp [hk] at h
  | _ => simp_all

theorem laid_struct {fs : List FieldDef} (hk : (E t).kind = .struct fs) (hs : (E t).special = none) (h : Laid E m T t p) :
    ∀ f ∈ fs, T.val f.typ (p.add f.offset) := by
  cases h with
  | struct hk' _ _ h1 => rw [hk] at hk'; simp at hk'; subst hk'; exact h1
  | _ => simp_all

theorem laid_iface {n : Nat} (G : GoTypes E pt) (hk : (E t).kind = .iface n) (h : Laid E m T t p) :
    ∃ x, ((n = 0 ∧ m.at p = some (.eface x)) ∨ (n ≠ 0 ∧ m.at p = some (.iface x))) ∧ T.Held E x := by
  cases h with
  | eface hk' h1 h2 => rw [hk] at hk'; simp at hk'; exact ⟨_, .inl ⟨hk', h1⟩, h2⟩
  | iface hk' h1 _ h2 => rw [hk] at hk'; simp at hk'; exact ⟨_, .inr ⟨by omega, h1⟩, h2⟩
  | time hs _ => obtain ⟨_, h, _⟩ := G.time _ hs; simp [hk] at h
  | smap hs => obtain ⟨_, h, _⟩ := G.syncMap _ hs; simp [hk] at h
  | _ => simp_all

/-- An interface without the four methods is read as an empty interface. -/
theorem laid_eface {n : Nat} (G : GoTypes E pt) (hk : (E t).kind = .iface n) (hm : ¬ MethSet.any (E t).meths) (h : Laid E m T t p) :
    ∃ x, readEface m p = some x ∧ firstWordNil m p = some x.isNone ∧ T.Held E x := by
  cases h with
  | eface hk' h1 h2 => exact ⟨_, by simp [readEface, h1], by simp [firstWordNil, h1], h2⟩
  | iface hk' h1 hany h2 =>
    cases h2 with
    | nil => exact ⟨none, by simp [readEface, h1], by simp [firstWordNil, h1], .nil⟩
    | direct | indirect => exact absurd (hany (by simp)) hm
  | time hs _ => obtain ⟨_, h, _⟩ := G.time _ hs; simp [hk] at h
  | smap hs => obtain ⟨_, h, _⟩ := G.syncMap _ hs; simp [hk] at h
  | _ => simp_all

/-- A method on a value that can be read is called on the value. -/
theorem laid_bare (hp : isPtrK (E t).kind = false) (hs : (E t).special = none) (h : Laid E m T t p) : Bare E t := by
  have no : ((∀ e, (E t).kind ≠ .ptr e) → (∀ k e, (E t).kind ≠ .map k e) → (E t).kind ≠ .other → (∀ f, (E t).kind ≠ .struct [f]) →
      (∀ e, (E t).kind ≠ .array 1 e) → Bare E t) := fun h1 h2 h3 h4 h5 _ hd => by
    rcases direct_kind hd with ⟨_, h⟩ | ⟨_, _, h⟩ | h | ⟨_, h⟩ | ⟨_, h⟩
    · exact h1 _ h
    · exact h2 _ _ h
    · exact h3 h
    · exact h4 _ h
    · exact h5 _ h
  cases h with
  | map _ h | array _ h | struct _ _ h | «opaque» _ h => exact h
  | time h | smap h => rw [hs] at h; cases h
  | ptr h => rw [h] at hp; cases hp
  | bool h | int h | float h | str h | nilSlice h | slice h | eface h | iface h => exact no (by simp [h]) (by simp [h]) (by simp [h]) (by simp [h]) (by simp [h])

theorem laid_time (G : GoTypes E pt) (hs : (E t).special = some .time) (h : Laid E m T t p) : ∃ x, m.at p = some (.time x) := by
  obtain ⟨fs, hk, _⟩ := G.time _ hs
  cases h with
  | time _ h => exact ⟨_, h⟩
  | _ => simp_all

theorem laid_smap (G : GoTypes E pt) (hs : (E t).special = some .syncMap) (h : Laid E m T t p) :
    ∃ es, m.at p = some (.smap es) ∧ ∀ x ∈ es, T.Held E x.1 ∧ T.Held E x.2 := by
  obtain ⟨fs, hk, _⟩ := G.syncMap _ hs
  cases h with
  | smap _ h h' => exact ⟨_, h, h'⟩
  | _ => simp_all

theorem le_refl (T : Places) : T.Le T := ⟨fun _ _ h => h, fun _ _ _ h => h⟩
theorem le_trans {T T' T'' : Places} (h : T.Le T') (h' : T'.Le T'') : T.Le T'' :=
  ⟨fun _ _ x => h'.1 _ _ (h.1 _ _ x), fun _ _ _ x => h'.2 _ _ _ (h.2 _ _ _ x)⟩

theorem held_le {T T' : Places} {x : Eface} (h : T.Le T') (hx : T.Held E x) : T'.Held E x := by
  cases hx with
  | nil => exact .nil
  | direct h1 h2 => exact .direct h1 (h.1 _ _ h2)
  | indirect h1 h3 => exact .indirect h1 (h.1 _ _ h3)

theorem laid_bytes (G : GoTypes E pt) (S : Sane E m T) {e : TId} (he : (E e).kind = .int .uint8) : ∀ (n : Nat) (p : Loc),
    (∀ i, i < n → T.val e (p.add i)) → ∃ b, readBytesAt m n p = some b
  | 0, _, _ => ⟨[], rfl⟩
  | n + 1, p, h => by
    have h0 := h 0 (by omega)
    have hp : p.add 0 = p := by cases p <;> simp [Loc.add]
    rw [hp] at h0
    obtain ⟨x, hx, hat⟩ := laid_int G he (S.val _ _ h0)
    cases x <;> simp [IntVal.kind] at hx
    cases n with
    | zero => exact ⟨_, by simp only [readBytesAt, hat]; rfl⟩
    | succ n =>
      have ⟨b, hb⟩ := laid_bytes G S he (n + 1) (p.add 1) (fun i hi => by
        have := h (i + 1) (by omega)
        cases p with
        | heap a =>
          have e : a + 1 + i = a + (i + 1) := by rw [Nat.add_assoc, Nat.add_comm 1 i]
          simpa only [Loc.add, e] using this
        | tmp w => simp [Mem.at] at hat)
      exact ⟨_, by rw [readBytesAt]; simp only [hat, hb]; rfl⟩

theorem laid_byteSlice (G : GoTypes E pt) (S : Sane E m T) {e : TId} (hk : (E t).kind = .slice e) (he : (E e).kind = .int .uint8)
    (h : Laid E m T t p) : ∃ b, readByteSlice m p = some b := by
  obtain ⟨d, n, hat, hv⟩ := laid_slice G hk h
  simp only [readByteSlice, readSlice, hat]
  split
  · exact ⟨_, rfl⟩
  · next hd =>
    obtain ⟨b, hb⟩ := laid_bytes G S he n (.heap d) (fun i hi => by
      have := hv hd i hi
      rwa [G.byteSize _ he, Nat.mul_one] at this)
    exact ⟨_, by rw [hb]; rfl⟩

/-- Following an offset sequence ends in a variable of the type reached, or at a nil pointer. -/
inductive Arrives (T : Places) (l : Loc) (u : TId) : Option (Option Loc) → Prop
  | nil : Arrives T l u (some none)
  | found {l'} : T.val u l' → (InHeap l → InHeap l') → Arrives T l u (some (some l'))

theorem walk_reaches {U : UnicodeTab} (G : GoTypes E pt) (S : Sane E m T) {l : Loc} (hv : T.val t l) {q : List Nat} {u : TId}
    {r : List (Nat × Bool)} (hr : Reaches U.isLetter U.isDigit E t q u r) : ∀ {ss : List Seq}, ss.map Seq.pair = r →
      Arrives T l u (walk m ss l) := by
  induction hr with
  | here => intro ss hss; simp at hss; subst hss; exact .found hv id
  | @step p u q fs i sf w ptr hr hfs hi hp ih =>
    intro ss hss
    obtain ⟨ss1, ss2, rfl, h1, h2⟩ := List.map_eq_append_iff.mp hss
    obtain ⟨s, rfl, hs⟩ : ∃ s, ss2 = [s] ∧ Seq.pair s = (sf.offset, ptr) := by
      cases ss2 with
      | nil => simp at h2
      | cons a t => cases t with
        | nil => simp at h2; exact ⟨a, rfl, h2⟩
        | cons b t => simp at h2
    simp only [Seq.pair, Prod.mk.injEq] at hs
    have ih := ih h1
    rw [walk_append]
    generalize walk m ss1 l = A at ih ⊢
    cases ih with
    | nil => exact .nil
    | @found l' hval hheap =>
      simp only
      have hmem : sf ∈ fs := List.mem_of_getElem? hi
      have hxr := laid_struct hfs (special_none G hfs hmem hp.1) (S.val _ _ hval) sf hmem
      simp only [walk, hs.1, hs.2]
      obtain ⟨-, -, -, hst, ⟨rfl, rfl⟩ | ⟨rfl, hkp, -⟩⟩ := hp
      · simp only [Bool.false_eq_true, if_false]
        exact .found hxr fun h => inHeap_add (hheap h) _
      · simp only [if_true]
        obtain ⟨a, hat, ha⟩ := laid_ptr G hkp (S.val _ _ hxr)
        simp only [readWord, hat]
        split
        · exact .nil
        · next h => exact .found (ha h) fun _ => ⟨a, h, rfl⟩

theorem walk_promoted {U : UnicodeTab} (G : GoTypes E pt) (S : Sane E m T) {l : Loc} (hv : T.val t l) {path : List Nat} {u : TId} {i : Nat}
    {sf : FieldDef} {name : Bytes} {tg : Bool} {ss : List Seq}
    (h : Promoted U.isLetter U.isDigit E t path u i sf name tg (ss.map Seq.pair)) : Arrives T l sf.typ (walk m ss l) := by
  obtain ⟨p, q, hr, rfl, hq⟩ := h.reach
  obtain ⟨fs, hfs, hi⟩ := h.decl
  obtain ⟨ss1, ss2, rfl, h1, h2⟩ := List.map_eq_append_iff.mp hq
  obtain ⟨s, rfl, hs⟩ : ∃ s, ss2 = [s] ∧ Seq.pair s = (sf.offset, false) := by
    cases ss2 with
    | nil => simp at h2
    | cons a t => cases t with
      | nil => simp at h2; exact ⟨a, rfl, h2⟩
      | cons b t => simp at h2
  simp only [Seq.pair, Prod.mk.injEq] at hs
  have ih := walk_reaches (U := U) G S hv hr h1
  rw [walk_append]
  generalize walk m ss1 l = A at ih ⊢
  cases ih with
  | nil => exact .nil
  | @found l' hval hheap =>
    simp only
    have hmem : sf ∈ fs := List.mem_of_getElem? hi
    have hxr := laid_struct hfs (special_none G hfs hmem h.member.1) (S.val _ _ hval) sf hmem
    simp only [walk, hs.1, hs.2]
    simp
    exact .found hxr fun h => inHeap_add (hheap h) _

theorem laid_nil (G : GoTypes E pt) (hk : isNilable (E t).kind = true) (h : Laid E m T t p) : ∃ b, firstWordNil m p = some b := by
  cases hkk : (E t).kind with
  | ptr e => obtain ⟨a, hat, -⟩ := laid_ptr G hkk h; simp [firstWordNil, hat]
  | map k e => obtain ⟨a, hat, -⟩ := laid_map G hkk h; simp [firstWordNil, hat]
  | slice e => obtain ⟨d, n, hat, -⟩ := laid_slice G hkk h; simp [firstWordNil, hat]
  | iface n => obtain ⟨x, ⟨-, hat⟩ | ⟨-, hat⟩, -⟩ := laid_iface G hkk h <;> simp [firstWordNil, hat]
  | _ => simp [hkk, isNilable] at hk

theorem laid_empty (G : GoTypes E pt) (S : Sane E m T) (h : Laid E m T t p) : ∃ b, (emptyFuncOf (E t).kind).eval m p = some b := by
  cases hkk : (E t).kind with
  | bool => obtain ⟨b, hat⟩ := laid_bool G hkk h; simp [emptyFuncOf, EmptyFn.eval, readBool, hat]
  | int k => obtain ⟨b, hb, hat⟩ := laid_int G hkk h; simp [emptyFuncOf, EmptyFn.eval, readInt, hat, hb]
  | float w => obtain ⟨b, hat⟩ := laid_float G hkk h; simp [emptyFuncOf, EmptyFn.eval, readFloat, hat]
  | string => obtain ⟨b, hat⟩ := laid_str G hkk h; simp [emptyFuncOf, EmptyFn.eval, readStr, hat]
  | iface n => obtain ⟨x, ⟨-, hat⟩ | ⟨-, hat⟩, -⟩ := laid_iface G hkk h <;> simp [emptyFuncOf, EmptyFn.eval, firstWordNil, hat]
  | struct fs => simp [emptyFuncOf, EmptyFn.eval]
  | map k e =>
    obtain ⟨a, hat, ha⟩ := laid_map G hkk h
    simp only [emptyFuncOf, EmptyFn.eval, readWord, hat, mapLen]
    split
    · exact ⟨_, rfl⟩
    · next h0 =>
      obtain ⟨es, hes, -⟩ := S.map _ _ _ (ha h0)
      simp [readMap, hes]
  | slice e => obtain ⟨d, n, hat, -⟩ := laid_slice G hkk h; simp [emptyFuncOf, EmptyFn.eval, readSlice, hat]
  | array n e => by_cases hn : n = 0 <;> simp [emptyFuncOf, hn, EmptyFn.eval]
  | ptr e => obtain ⟨a, hat, -⟩ := laid_ptr G hkk h; simp [emptyFuncOf, EmptyFn.eval, readWord, hat]
  | other => simp [emptyFuncOf, EmptyFn.eval]

/-- Where the field is found, or that it is left out. -/
theorem field_arrives {U : UnicodeTab} {o : EncOpts} (G : GoTypes E pt) (S : Sane E m T) {ca : Bool} {l : Loc} (hv : T.val t l) (ht : IsStruct E t)
    {f : FInstr} {ftyp : TId} (hf : FieldOk E t ca f ftyp) (hr : RouteOk E U t f.fld) : Arrives T l ftyp (fieldLoc m o f l) := by
  obtain ⟨u, i, sf, hp, -⟩ := hr
  have hty := promoted_type ht hp
  have : sf.typ = ftyp := by have := hf.typ; rw [hty] at this; simpa using this
  subst this
  have hw := walk_promoted G S hv hp
  simp only [fieldLoc]
  split
  · exact .nil
  · generalize walk m f.fld.embedSeq l = A at hw ⊢
    cases hw with
    | nil => exact .nil
    | @found l' hval hheap =>
      simp only
      have hl := S.val _ _ hval
      have h1 : ∃ b, (if f.omitNil = true then firstWordNil m l' else some false) = some b := by
        split
        · next ho => exact laid_nil G (hf.omitNil ho) hl
        · exact ⟨_, rfl⟩
      obtain ⟨b, hb⟩ := h1
      rw [hb]
      cases b with
      | true => exact .nil
      | false =>
        cases he : f.empty with
        | none => exact .found hval hheap
        | some e =>
          have h2 : ∃ b, e.eval m l' = some b := by rw [hf.empty e he]; exact laid_empty G S hl
          obtain ⟨b, hb⟩ := h2
          simp only [hb]
          cases b with
          | true => exact .nil
          | false => exact .found hval hheap

end Jettison.Proofs
