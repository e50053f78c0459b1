import Verif.Spec.Lossless
import Verif.Proofs.Doc
import Verif.Proofs.Walk
import Verif.Proofs.Parts
import Verif.Proofs.StructOut
import Verif.Proofs.Base64
import Verif.Proofs.GoYear
import Verif.Proofs.Time
import Verif.Proofs.Parser

/-! # What a tree says about the values that have it -/

namespace Jettison.Proofs
open Jettison Jettison.Spec Jettison.Model

/-! ## Leaves -/

theorem strContent_kept {o : EncOpts} {s c : Bytes} (hk : KeptText o s) (h : StrContent o s c) : c = s := by
  rcases hk with hk | hk
  · exact h.1 hk
  · cases hf : bmHas o.flags .noUTF8Coercion with
    | true => exact h.1 hf
    | false => exact coerced_valid (h.2 hf) hk

theorem intOf_inj {x y : IntVal} (hk : x.kind = y.kind) (h : intOf x = intOf y) : x = y := by
  cases x <;> cases y <;> simp only [IntVal.kind, reduceCtorEq] at hk <;> simp only [intOf] at h <;> congr 1
  case int a b => exact Int64.toInt_inj.mp h
  case int64 a b => exact Int64.toInt_inj.mp h
  case int8 a b => exact Int8.toInt_inj.mp h
  case int16 a b => exact Int16.toInt_inj.mp h
  case int32 a b => exact Int32.toInt_inj.mp h
  case uint a b => exact UInt64.toNat_inj.mp (by omega)
  case uint64 a b => exact UInt64.toNat_inj.mp (by omega)
  case uintptr a b => exact UInt64.toNat_inj.mp (by omega)
  case uint8 a b => exact UInt8.toNat_inj.mp (by omega)
  case uint16 a b => exact UInt16.toNat_inj.mp (by omega)
  case uint32 a b => exact UInt32.toNat_inj.mp (by omega)

theorem asBytes_inj {vs vs' : List Val} {b : Bytes} (h : AsBytes vs b) (h' : AsBytes vs' b) : vs = vs' := h.trans h'.symm

/-! ## Times -/

theorem padDigits_inj {w n n' : Nat} (hn : n < 10 ^ w) (hn' : n' < 10 ^ w) (h : padDigits w n = padDigits w n') : n = n' := by
  have := congrArg digitsVal h
  rwa [padDigits_val, padDigits_val, Nat.mod_eq_of_lt hn, Nat.mod_eq_of_lt hn'] at this

theorem digits_cut : ∀ {a a' z z' : Bytes}, (∀ c ∈ a, IsDigit c) → (∀ c ∈ a', IsDigit c) → (∀ c, z.head? = some c → ¬ IsDigit c) →
    (∀ c, z'.head? = some c → ¬ IsDigit c) → a ++ z = a' ++ z' → a = a' ∧ z = z'
  | [], [], _, _, _, _, _, _, h => ⟨rfl, h⟩
  | [], c :: a', z, z', _, h2, h3, _, h => by
    have : z.head? = some c := by rw [List.nil_append] at h; rw [h]; rfl
    exact absurd (h2 c (by simp)) (h3 c this)
  | c :: a, [], z, z', h1, _, _, h4, h => by
    have : z'.head? = some c := by rw [List.nil_append] at h; rw [← h]; rfl
    exact absurd (h1 c (by simp)) (h4 c this)
  | c :: a, c' :: a', z, z', h1, h2, h3, h4, h => by
    simp only [List.cons_append, List.cons.injEq] at h
    obtain ⟨e1, e2⟩ := digits_cut (fun x hx => h1 x (by simp [hx])) (fun x hx => h2 x (by simp [hx])) h3 h4 h.2
    exact ⟨by rw [h.1, e1], e2⟩

theorem zone_head (f : Int) : ∀ c, (zoneText f).head? = some c → ¬ IsDigit c ∧ c ≠ c! '.' := by
  intro c hc
  simp only [zoneText] at hc
  split at hc
  · simp at hc; subst hc; decide
  · split at hc <;> (simp at hc; subst hc; decide)

theorem zone_inj {f f' : Int} (h1 : f % 60 = 0) (h1' : f' % 60 = 0) (h2 : f.natAbs < 360000) (h2' : f'.natAbs < 360000)
    (h : zoneText f = zoneText f') : f = f' := by
  have hf : f = 60 * f.tdiv 60 := (Int.mul_tdiv_cancel' (Int.dvd_of_emod_eq_zero h1)).symm
  have hf' : f' = 60 * f'.tdiv 60 := (Int.mul_tdiv_cancel' (Int.dvd_of_emod_eq_zero h1')).symm
  simp only [zoneText] at h
  generalize f.tdiv 60 = z at *
  generalize f'.tdiv 60 = z' at *
  by_cases h0 : f = 0 <;> by_cases h0' : f' = 0
  · omega
  · rw [if_pos h0, if_neg h0'] at h; split at h <;> simp at h
  · rw [if_neg h0, if_pos h0'] at h; split at h <;> simp at h
  · rw [if_neg h0, if_neg h0'] at h
    have hz : z.natAbs < 6000 := by omega
    have hz' : z'.natAbs < 6000 := by omega
    have key : ∀ {s s' : Bytes}, s.length = s'.length →
        s ++ padDigits 2 (z.natAbs / 60) ++ b! ":" ++ padDigits 2 (z.natAbs % 60) = s' ++ padDigits 2 (z'.natAbs / 60) ++ b! ":" ++ padDigits 2 (z'.natAbs % 60) →
        s = s' ∧ z.natAbs = z'.natAbs := by
      intro s s' hs h
      simp only [List.append_assoc] at h
      obtain ⟨e1, h⟩ := List.append_inj h hs
      obtain ⟨e2, h⟩ := List.append_inj h (by simp [padDigits_length])
      obtain ⟨-, e3⟩ := List.append_inj h rfl
      have e2 := padDigits_inj (by omega) (by omega) e2
      have e3 := padDigits_inj (by omega) (by omega) e3
      exact ⟨e1, by omega⟩
    by_cases g : z < 0 <;> by_cases g' : z' < 0
    · rw [if_pos g, if_pos g'] at h; obtain ⟨-, e⟩ := key rfl h; omega
    · rw [if_pos g, if_neg g'] at h; obtain ⟨e, -⟩ := key (by simp) h; simp at e
    · rw [if_neg g, if_pos g'] at h; obtain ⟨e, -⟩ := key (by simp) h; simp at e
    · rw [if_neg g, if_neg g'] at h; obtain ⟨-, e⟩ := key rfl h; omega

theorem dateTime_inj {y mo d h mi s y' mo' d' h' mi' s' : Nat} {r r' : Bytes} {l l' : Int} (a : CivilTime l y mo d h mi s)
    (a' : CivilTime l' y' mo' d' h' mi' s') (hy : y ≤ 9999) (hy' : y' ≤ 9999)
    (e : dateTimeText y mo d h mi s ++ r = dateTimeText y' mo' d' h' mi' s' ++ r') : l = l' ∧ r = r' := by
  obtain ⟨⟨a0, a1, a2, a3⟩, a4, a5, a6, a7⟩ := a
  obtain ⟨⟨b0, b1, b2, b3⟩, b4, b5, b6, b7⟩ := a'
  have hd : ∀ y m, daysInMonth y m ≤ 31 := by
    intro y m
    unfold daysInMonth
    split <;> first | omega | (split <;> omega)
  have c1 := hd y mo
  have c2 := hd y' mo'
  simp only [dateTimeText, List.append_assoc] at e
  obtain ⟨e1, e⟩ := List.append_inj e (by simp [padDigits_length])
  obtain ⟨-, e⟩ := List.append_inj e rfl
  obtain ⟨e2, e⟩ := List.append_inj e (by simp [padDigits_length])
  obtain ⟨-, e⟩ := List.append_inj e rfl
  obtain ⟨e3, e⟩ := List.append_inj e (by simp [padDigits_length])
  obtain ⟨-, e⟩ := List.append_inj e rfl
  obtain ⟨e4, e⟩ := List.append_inj e (by simp [padDigits_length])
  obtain ⟨-, e⟩ := List.append_inj e rfl
  obtain ⟨e5, e⟩ := List.append_inj e (by simp [padDigits_length])
  obtain ⟨-, e⟩ := List.append_inj e rfl
  obtain ⟨e6, hr⟩ := List.append_inj e (by simp [padDigits_length])
  have e1 := padDigits_inj (by omega) (by omega) e1
  have e2 := padDigits_inj (by omega) (by omega) e2
  have e3 := padDigits_inj (by omega) (by omega) e3
  have e4 := padDigits_inj (by omega) (by omega) e4
  have e5 := padDigits_inj (by omega) (by omega) e5
  have e6 := padDigits_inj (by omega) (by omega) e6
  subst e1 e2 e3 e4 e5 e6
  exact ⟨by omega, hr⟩

theorem frac_inj {f f' z z' : Bytes} {p r r' : Nat} (h : FracText f p r) (h' : FracText f' p r') (hz : ∀ c, z.head? = some c → ¬ IsDigit c ∧ c ≠ c! '.')
    (hz' : ∀ c, z'.head? = some c → ¬ IsDigit c ∧ c ≠ c! '.') (e : f ++ z = f' ++ z') : r = r' ∧ z = z' := by
  rcases h with ⟨rfl, rfl⟩ | ⟨a, d, rfl, -, h1, h2, h3⟩
  · rcases h' with ⟨rfl, rfl⟩ | ⟨a, d, rfl, -, -⟩
    · exact ⟨rfl, e⟩
    · exact absurd rfl (hz (c! '.') (by rw [List.nil_append] at e; rw [e]; rfl)).2
  · rcases h' with ⟨rfl, rfl⟩ | ⟨a', d', rfl, -, g1, g2, g3⟩
    · exact absurd rfl (hz' (c! '.') (by rw [List.nil_append] at e; rw [← e]; rfl)).2
    · simp only [List.cons_append, List.cons.injEq, true_and] at e
      obtain ⟨e1, e2⟩ := digits_cut h1 g1 (fun c hc => (hz c hc).1) (fun c hc => (hz' c hc).1) e
      rw [e1] at h3
      exact ⟨h3.symm.trans g3, e2⟩

/-- The RFC 3339 text with nanoseconds determines the time and its zone. -/
theorem rfc3339_inj {x x' : GoTime} {text : Bytes} (h : IsRFC3339 x true text) (h' : IsRFC3339 x' true text) (h1 : x.offset % 60 = 0)
    (h1' : x'.offset % 60 = 0) (h2 : x.offset.natAbs < 360000) (h2' : x'.offset.natAbs < 360000) : x = x' := by
  obtain ⟨y, mo, d, hh, mi, s, f, c1, c2, c3, rfl⟩ := h
  obtain ⟨y', mo', d', hh', mi', s', f', g1, g2, g3, e⟩ := h'
  simp only [List.append_assoc] at e
  obtain ⟨e1, e⟩ := dateTime_inj c1 g1 c2 g2 e
  obtain ⟨e2, e⟩ := frac_inj c3 g3 (zone_head _) (zone_head _) e
  have e3 := zone_inj h1 h1' h2 h2' e
  simp only [if_true] at e2
  cases x; cases x'
  simp only [GoTime.mk.injEq] at *
  exact ⟨by omega, e2, e3⟩

/-! ## Lists -/

theorem getElem?_len {α β : Type} {l : List α} {r : List β} (h : l.length = r.length) {i : Nat} {x : α} (hx : l[i]? = some x) : ∃ y, r[i]? = some y := by
  obtain ⟨hi, -⟩ := List.getElem?_eq_some_iff.mp hx
  exact ⟨r[i]'(by omega), List.getElem?_eq_getElem (by omega)⟩

/-- Lists related element by element. -/
inductive Paired {α β : Type} (R : α → β → Prop) : List α → List β → Prop
  | nil : Paired R [] []
  | cons {x y l r} : R x y → Paired R l r → Paired R (x :: l) (y :: r)

/-- A permutation of what the elements of a list are related to comes from one of the list. -/
theorem perm_rel {α β : Type} {R : α → β → Prop} {ms ms' : List β} (h : ms.Perm ms') : ∀ {l : List α}, Paired R l ms' →
    ∃ l', l'.Perm l ∧ Paired R l' ms := by
  induction h with
  | nil => exact fun h => ⟨_, .refl _, h⟩
  | cons x _ ih =>
    intro l h
    cases h with
    | cons h1 h2 =>
      obtain ⟨l', p, h3⟩ := ih h2
      exact ⟨_, p.cons _, .cons h1 h3⟩
  | swap x y t =>
    intro l h
    cases h with
    | cons h1 h2 =>
      cases h2 with
      | cons h3 h4 => exact ⟨_, .swap _ _ _, .cons h3 (.cons h1 h4)⟩
  | trans _ _ ih1 ih2 =>
    intro l h
    obtain ⟨l', p, h3⟩ := ih2 h
    obtain ⟨l'', p', h4⟩ := ih1 h3
    exact ⟨l'', p'.trans p, h4⟩

theorem paired_of_get {α β : Type} {R : α → β → Prop} : ∀ {l : List α} {r : List β}, l.length = r.length →
    (∀ (i : Nat) x y, l[i]? = some x → r[i]? = some y → R x y) → Paired R l r
  | [], [], _, _ => .nil
  | x :: l, y :: r, h, hR => .cons (hR 0 x y rfl rfl) (paired_of_get (by simpa using h) fun i a b h1 h2 => hR (i + 1) a b (by simpa using h1) (by simpa using h2))

theorem paired_get {α β : Type} {R : α → β → Prop} {l : List α} {r : List β} (h : Paired R l r) :
    l.length = r.length ∧ ∀ (i : Nat) x y, l[i]? = some x → r[i]? = some y → R x y := by
  induction h with
  | nil => exact ⟨rfl, by simp⟩
  | cons h1 _ ih =>
    refine ⟨by simp [ih.1], fun i x y hx hy => ?_⟩
    cases i with
    | zero => simp at hx hy; subst hx hy; exact h1
    | succ i => exact ih.2 i x y (by simpa using hx) (by simpa using hy)

/-! ## The derivations for a kind -/

section Inv
variable {W : World} {M : MethV} {o : EncOpts} {t : TId} {ca q : Bool} {v : Val} {j : Json}

/-- Closes the rules for other kinds, for methods and for natively handled types. -/
macro "byKindRest" hb:ident : tactic => `(tactic|
  first
  | exact (picks_byKind ‹_› $hb).elim
  | (have hsp := ByKind.special $hb; simp_all; done))

theorem not_struct {E : Env} {t : TId} {k : Kind} (hk : (E t).kind = k) (hn : ∀ fs, k ≠ .struct fs) : ¬ IsStruct E t :=
  fun ⟨fs, h⟩ => hn fs (hk.symm.trans h)

theorem inv_bool (hb : ByKind W.E t ca) (hk : (W.E t).kind = .bool) (h : Denotes W M o t ca false v j) : ∃ b, v = .bool b ∧ j = .bool b := by
  cases h with
  | bool => exact ⟨_, rfl, rfl⟩
  | struct _ hst => exact absurd hst (not_struct hk (by simp))
  | _ => byKindRest hb

theorem inv_int {k : IntK} (hb : ByKind W.E t ca) (hk : (W.E t).kind = .int k) (h : Denotes W M o t ca false v j) :
    ∃ x lit, v = .int x ∧ j = .num lit ∧ IntLiteral lit (intOf x) := by
  cases h with
  | int _ _ hl => exact ⟨_, _, rfl, rfl, hl⟩
  | struct _ hst => exact absurd hst (not_struct hk (by simp))
  | _ => byKindRest hb

theorem inv_float {w : FWidth} (hb : ByKind W.E t ca) (hk : (W.E t).kind = .float w) (h : Denotes W M o t ca false v j) :
    ∃ x lit, v = .float w x ∧ j = .num lit ∧ FloatLit W.fmt w x lit := by
  cases h with
  | float _ hk' hl => rw [hk] at hk'; cases hk'; exact ⟨_, _, rfl, rfl, hl⟩
  | struct _ hst => exact absurd hst (not_struct hk (by simp))
  | _ => byKindRest hb

theorem inv_str (hb : ByKind W.E t ca) (hk : (W.E t).kind = .string) (h : Denotes W M o t ca false v j) :
    ∃ s c, v = .str s ∧ j = .str c ∧ StrContent o s c := by
  cases h with
  | str _ _ hl => exact ⟨_, _, rfl, rfl, hl⟩
  | struct _ hst => exact absurd hst (not_struct hk (by simp))
  | _ => byKindRest hb

theorem inv_quoted (hb : ByKind W.E t ca) (hk : isBasicK (W.E t).kind = true) (h : Denotes W M o t ca true v j) :
    ∃ j0 text, j = .str text ∧ Denotes W M o t ca false v j0 ∧ CompactText j0 text := by
  cases h with
  | quoted _ _ hd hc => exact ⟨_, _, rfl, hd, hc⟩
  | ptrNil _ hk' => rw [hk'] at hk; cases hk
  | ptr _ hk' => rw [hk'] at hk; cases hk
  | _ => exact (picks_byKind ‹_› hb).elim

theorem inv_ptr {e : TId} (hb : ByKind W.E t ca) (hk : (W.E t).kind = .ptr e) (h : Denotes W M o t ca q v j) :
    (v = .nil ∧ j = .null) ∨ ∃ x, v = .ptr x ∧ Denotes W M o e true q x j := by
  cases h with
  | ptrNil => exact .inl ⟨rfl, rfl⟩
  | ptr _ hk' hd => rw [hk] at hk'; cases hk'; exact .inr ⟨_, rfl, hd⟩
  | quoted _ hk' => rw [hk] at hk'; cases hk'
  | struct _ hst => exact absurd hst (not_struct hk (by simp))
  | _ => byKindRest hb

theorem inv_slice {e : TId} (hb : ByKind W.E t ca) (hk : (W.E t).kind = .slice e) (he : ¬ ByteElem W.E e) (hn : bmHas o.flags .nilSliceEmpty = false)
    (h : Denotes W M o t ca false v j) : (v = .nil ∧ j = .null) ∨ ∃ vs js, v = .slice vs ∧ j = .arr js ∧ js.length = vs.length ∧
      ∀ (i : Nat) v j, vs[i]? = some v → js[i]? = some j → Denotes W M o e true false v j := by
  cases h with
  | sliceNil => exact .inl ⟨rfl, rfl⟩
  | slice _ hk' h1 h2 h3 => rw [hk] at hk'; cases hk'; exact .inr ⟨_, _, rfl, rfl, h2, h3⟩
  | bytes _ hk' h1 => rw [hk] at hk'; cases hk'; exact absurd h1 he
  | rawBytes _ hk' h1 => rw [hk] at hk'; cases hk'; exact absurd h1 he
  | bytesNil _ hk' h1 => rw [hk] at hk'; cases hk'; exact absurd h1 he
  | struct _ hst => exact absurd hst (not_struct hk (by simp))
  | _ => byKindRest hb

theorem inv_bytes {e : TId} (hb : ByKind W.E t ca) (hk : (W.E t).kind = .slice e) (he : ByteElem W.E e) (hn : bmHas o.flags .nilSliceEmpty = false)
    (h : Denotes W M o t ca false v j) : (v = .nil ∧ j = .null) ∨ ∃ vs b text, v = .slice vs ∧ j = .str text ∧ AsBytes vs b ∧
      ((bmHas o.flags .rawByteSlice = false ∧ IsBase64 b text) ∨ (bmHas o.flags .rawByteSlice = true ∧ StrContent o b text)) := by
  cases h with
  | bytesNil => exact .inl ⟨rfl, rfl⟩
  | bytes _ _ _ h1 h2 h3 => exact .inr ⟨_, _, _, rfl, rfl, h2, .inl ⟨h1, h3⟩⟩
  | rawBytes _ _ _ h1 h2 h3 => exact .inr ⟨_, _, _, rfl, rfl, h2, .inr ⟨h1, h3⟩⟩
  | slice _ hk' h1 h2 h3 => rw [hk] at hk'; cases hk'; exact absurd he h1
  | sliceNil _ hk' h1 => rw [hk] at hk'; cases hk'; exact absurd he h1
  | struct _ hst => exact absurd hst (not_struct hk (by simp))
  | _ => byKindRest hb

theorem inv_array {n : Nat} {e : TId} (hb : ByKind W.E t ca) (hk : (W.E t).kind = .array n e) (h : Denotes W M o t ca false v j) :
    (∃ vs b c, v = .array vs ∧ j = .str c ∧ ByteElem W.E e ∧ bmHas o.flags .byteArrayAsString = true ∧ AsBytes vs b ∧ StrContent o b c) ∨
    ∃ vs js, v = .array vs ∧ j = .arr js ∧ js.length = vs.length ∧
      ∀ (i : Nat) v j, vs[i]? = some v → js[i]? = some j → Denotes W M o e ca false v j := by
  cases h with
  | byteArray _ hk' h1 h2 h3 h4 => rw [hk] at hk'; cases hk'; exact .inl ⟨_, _, _, rfl, rfl, h1, h2, h3, h4⟩
  | array _ hk' h1 h2 h3 => rw [hk] at hk'; cases hk'; exact .inr ⟨_, _, rfl, rfl, h2, h3⟩
  | struct _ hst => exact absurd hst (not_struct hk (by simp))
  | _ => byKindRest hb

theorem inv_map {k e : TId} (hb : ByKind W.E t ca) (hk : (W.E t).kind = .map k e) (hn : bmHas o.flags .nilMapEmpty = false)
    (h : Denotes W M o t ca false v j) : (v = .nil ∧ j = .null) ∨ ∃ kvs ms ms', v = .map kvs ∧ j = .obj ms' ∧ ms.length = kvs.length ∧
      (∀ (i : Nat) kv m, kvs[i]? = some kv → ms[i]? = some m → KeyDenotes W M o k false kv.1 m.1) ∧
      (∀ (i : Nat) kv m, kvs[i]? = some kv → ms[i]? = some m → Denotes W M o e false false kv.2 m.2) ∧ ms'.Perm ms := by
  cases h with
  | mapNil => exact .inl ⟨rfl, rfl⟩
  | map _ hk' h1 h2 h3 h4 => rw [hk] at hk'; cases hk'; exact .inr ⟨_, _, _, rfl, rfl, h1, h2, h3, h4⟩
  | struct _ hst => exact absurd hst (not_struct hk (by simp))
  | _ => byKindRest hb

theorem inv_struct (hb : ByKind W.E t ca) (hs : IsStruct W.E t) (h : Denotes W M o t ca false v j) :
    ∃ (l kept : List MField) (q' : MField → Bool) (x : MField → Val) (j' : MField → Json), MembersOf W.U.isLetter W.U.isDigit W.E t l ∧ kept.Sublist l ∧
      (∀ m ∈ l, m ∈ kept ↔ ¬ LeftOut o v m) ∧ (∀ m ∈ kept, FieldAt v m.path (x m)) ∧
      (∀ m ∈ kept, q' m = true ↔ HasOpt m.decl (b! "string") ∧ BasicOrPtr W.E m.decl.typ) ∧
      (∀ m, m ∈ kept → Denotes W M o m.decl.typ ca (q' m) (x m) (j' m)) ∧ j = .obj (kept.map fun m => (m.name, j' m)) := by
  obtain ⟨fs, hk⟩ := hs
  simp only [HasFields] at hk
  cases h with
  | struct _ _ h2 h3 h4 h5 h6 h7 => exact ⟨_, _, _, _, _, h2, h3, h4, h5, h6, h7, rfl⟩
  | _ => byKindRest hb

theorem inv_duration (hs : (W.E t).special = some .duration) (h : Denotes W M o t ca q v j) : q = false ∧ ∃ d, v = .int (.int64 d) ∧ DurTree W o d j := by
  cases h with
  | duration _ h => exact ⟨rfl, _, rfl, h⟩
  | _ => first | simp_all; done | (have := ByKind.special ‹_›; simp_all; done)

theorem inv_time (hs : (W.E t).special = some .time) (h : Denotes W M o t ca q v j) : q = false ∧ ∃ x, v = .time x ∧ TimeTree W o x j := by
  cases h with
  | time _ h => exact ⟨rfl, _, rfl, h⟩
  | _ => first | simp_all; done | (have := ByKind.special ‹_›; simp_all; done)

theorem not_null (hb : (W.E t).special = none → ByKind W.E t ca) (hr : (W.E t).special ≠ some .rawMessage) (hn : ¬ HasNil W.E t) (h : Denotes W M o t ca q v .null) : False := by
  cases h with
  | methNil hs hp => exact picks_byKind hp (hb hs)
  | meth hs hp => exact picks_byKind hp (hb hs)
  | rawNil h => exact hr h
  | raw h => exact hr h
  | ptrNil _ h => exact hn (.inl ⟨_, h⟩)
  | ptr _ h => exact hn (.inl ⟨_, h⟩)
  | iface _ h => exact hn (.inr (.inr (.inr ⟨_, h⟩)))
  | bytesNil _ h => exact hn (.inr (.inl ⟨_, h⟩))
  | sliceNil _ h => exact hn (.inr (.inl ⟨_, h⟩))
  | mapNil _ h => exact hn (.inr (.inr (.inl ⟨_, _, h⟩)))
  | time _ h => cases h
  | duration _ h => cases h

theorem inv_tag (hb : ByKind W.E t ca) (hk : ¬ isBasicK (W.E t).kind = true) (hp : ∀ e, (W.E t).kind ≠ .ptr e) (h : Denotes W M o t ca q v j) : q = false := by
  cases q with
  | false => rfl
  | true =>
    cases h with
    | quoted _ h => exact absurd h hk
    | ptrNil _ h => exact absurd h (hp _)
    | ptr _ h => exact absurd h (hp _)
    | _ => exact (picks_byKind ‹_› hb).elim

end Inv

/-! ## Fields -/

theorem chosen_eq {U : UnicodeTab} {E : Env} {t : TId} (ht : IsStruct E t) {m m' : MField} (h : ChosenField U.isLetter U.isDigit E t m)
    (h' : ChosenField U.isLetter U.isDigit E t m') (hn : m.name = m'.name) : m = m' := by
  obtain ⟨p, u, i, r, tg, hp, h1, h2, -, h4⟩ := h
  obtain ⟨p', u', i', r', tg', hp', h1', h2', -, h4'⟩ := h'
  have hpath : m.path = m'.path := by
    refine Classical.byContradiction fun hne => ?_
    have w1 := h4 p' u' i' m'.decl tg' r' (by rw [hn, ← hp']; exact h1') h2' (by rw [← hp']; exact fun h => hne h.symm)
    have w2 := h4' p u i m.decl tg r (by rw [← hn, ← hp]; exact h1) h2 (by rw [← hp]; exact hne)
    rw [← hp'] at w1
    rw [← hp] at w2
    simp only [Wins] at w1 w2
    rcases w1 with w1 | ⟨w1, w3, w4⟩ <;> rcases w2 with w2 | ⟨w2, w5, w6⟩
    · omega
    · omega
    · omega
    · rw [w3] at w6; cases w6
  obtain ⟨⟨a, b, ha, ha', -⟩, ⟨fs, hf, hi⟩, -⟩ := h1
  obtain ⟨⟨a', b', hb, hb', -⟩, ⟨fs', hf', hi'⟩, -⟩ := h1'
  obtain ⟨e1, e2⟩ := append_single_inj ((ha'.symm.trans hpath).trans hb')
  subst e1 e2
  obtain ⟨w, hw, hd⟩ := reaches_type ht ha
  obtain ⟨w', hw', hd'⟩ := reaches_type ht hb
  rw [hw] at hw'; cases hw'
  rw [hd] at hd'; subst hd'
  simp only [HasFields] at hf hf'
  rw [hf] at hf'; cases hf'
  rw [hi] at hi'
  have hd := Option.some.inj hi'
  cases m; cases m'
  simp_all

theorem fieldAt_size {v x : Val} {path : List Nat} (h : FieldAt v path x) : sizeOf x < sizeOf v := by
  induction h with
  | last h => have := List.sizeOf_lt_of_mem (List.mem_of_getElem? h); simp; omega
  | embed h _ ih => have := List.sizeOf_lt_of_mem (List.mem_of_getElem? h); simp at *; omega
  | deref h _ ih => have := List.sizeOf_lt_of_mem (List.mem_of_getElem? h); simp at *; omega

theorem fieldAt_unique {v x x' : Val} {path : List Nat} (h : FieldAt v path x) (h' : FieldAt v path x') : x = x' := by
  rw [fieldAt_iff] at h h'
  rw [h] at h'
  simpa using h'

theorem chosen_field (G : GoTypes E pt) {U : UnicodeTab} {t : TId} (ht : IsStruct E t) {m : MField} (h : ChosenField U.isLetter U.isDigit E t m)
    {v x : Val} (hv : HasType E t v) (hx : FieldAt v m.path x) : HasType E m.decl.typ x ∧ Within E t v m.decl.typ x := by
  obtain ⟨_, _, _, _, _, -, hp, -⟩ := h
  exact fieldAt_type G hx ht hv (promoted_type ht hp)

/-! ## The same tree -/

section Main
variable {W W' : World} {M M' : MethV} {o : EncOpts} {t : TId}

theorem carried_byKind {v : Val} (C : Carried W o t v) (hs : (W.E t).special = none) (ca : Bool) : ByKind W.E t ca :=
  ⟨hs, (C.meths hs).1, fun _ _ => (C.meths hs).2⟩

/-- Values of a basic type. -/
theorem basic_alike (hE : W'.E = W.E) (hF : W'.fmt = W.fmt) {v v' : Val} (C : Carried W o t v) (C' : Carried W o t v') (hs : (W.E t).special = none)
    (hk : isBasicK (W.E t).kind = true) (hv : HasType W.E t v) (hv' : HasType W.E t v') (G : GoTypes W.E W.ptrTo) {ca : Bool} {j : Json}
    (h : Denotes W M o t ca false v j) (h' : Denotes W' M' o t ca false v' j) : Alike W o t v v' := by
  have hb := carried_byKind C hs ca
  have hb' : ByKind W'.E t ca := by rw [hE]; exact hb
  cases hkk : (W.E t).kind with
  | bool =>
    obtain ⟨b, rfl, rfl⟩ := inv_bool hb hkk h
    obtain ⟨b', rfl, e⟩ := inv_bool hb' (by rw [hE]; exact hkk) h'
    cases e; exact .refl
  | int k =>
    obtain ⟨x, lit, rfl, rfl, hl⟩ := inv_int hb hkk h
    obtain ⟨x', lit', rfl, e, hl'⟩ := inv_int hb' (by rw [hE]; exact hkk) h'
    cases e
    obtain ⟨y, e, hy⟩ := has_int G hkk hv; cases e
    obtain ⟨y', e, hy'⟩ := has_int G hkk hv'; cases e
    rw [intOf_inj (hy.trans hy'.symm) (intLiteral_functional hl hl')]
    exact .refl
  | float w =>
    obtain ⟨x, lit, rfl, rfl, hl⟩ := inv_float hb hkk h
    obtain ⟨x', lit', rfl, e, hl'⟩ := inv_float hb' (by rw [hE]; exact hkk) h'
    cases e
    obtain ⟨f1, f, m, e, n1, n2⟩ := hl
    obtain ⟨f1', f', m', e', n1', n2'⟩ := hl'
    obtain ⟨rfl, rfl⟩ := numDenotes_functional n2 n2'
    rw [hF] at n1'
    exact .float (C.float w hkk _ _ _ _ _ _ f1 f1' n1 n1')
  | string =>
    obtain ⟨s, c, rfl, rfl, hl⟩ := inv_str hb hkk h
    obtain ⟨s', c', rfl, e, hl'⟩ := inv_str hb' (by rw [hE]; exact hkk) h'
    cases e
    rw [← strContent_kept (C.str _ rfl) hl, ← strContent_kept (C'.str _ rfl) hl']
    exact .refl
  | _ => rw [hkk] at hk; cases hk

theorem carried_notNull {v : Val} (C : Carried W o t v) (hn : ¬ HasNil W.E t) {ca q : Bool} : ¬ Denotes W M o t ca q v .null :=
  not_null (fun hs => carried_byKind C hs ca) (by rcases C.special with h | h | h <;> (rw [h]; nofun)) hn

/-- Keys with the same name are the same. -/
theorem key_eq (hE : W'.E = W.E) {v v' : Val} (hs : (W.E t).special = none)
    (hk : (W.E t).kind = .string ∨ ∃ i, (W.E t).kind = .int i) (hv : HasType W.E t v) (hv' : HasType W.E t v') (G : GoTypes W.E W.ptrTo)
    (C : Carried W o t v) (C' : Carried W o t v') {name : Bytes} (h : KeyDenotes W M o t false v name) (h' : KeyDenotes W' M' o t false v' name) : v = v' := by
  have hb := carried_byKind C hs false
  have hb' : ByKind W'.E t false := by rw [hE]; exact hb
  rcases hk with hk | ⟨i, hk⟩
  · cases h with
    | str _ h1 =>
      cases h' with
      | str _ h2 => rw [← strContent_kept (C.str _ rfl) h1, ← strContent_kept (C'.str _ rfl) h2]
      | num h => rw [hE] at h; exact absurd hk h
      | text h => rw [hE] at h; exact absurd hk h
      | nilText _ h => obtain ⟨e, h⟩ := h; rw [hE, hk] at h; cases h
    | num h => exact absurd hk h
    | text h => exact absurd hk h
    | nilText _ h => obtain ⟨e, h⟩ := h; rw [hk] at h; cases h
  · cases h with
    | str h => rw [hk] at h; cases h
    | nilText _ h => obtain ⟨e, h⟩ := h; rw [hk] at h; cases h
    | text _ ht => exact absurd (.inr (.inr (.inr ht))) (C.meths hs).1
    | num _ _ h1 =>
      cases h' with
      | str h => rw [hE, hk] at h; cases h
      | nilText _ h => obtain ⟨e, h⟩ := h; rw [hE, hk] at h; cases h
      | text _ ht => rw [hE] at ht; exact absurd (.inr (.inr (.inr ht))) (C.meths hs).1
      | num _ _ h2 =>
        obtain ⟨x, lit, rfl, e, hl⟩ := inv_int hb hk h1; cases e
        obtain ⟨x', lit', rfl, e, hl'⟩ := inv_int hb' (by rw [hE]; exact hk) h2; cases e
        obtain ⟨y, e, hy⟩ := has_int G hk hv; cases e
        obtain ⟨y', e, hy'⟩ := has_int G hk hv'; cases e
        rw [intOf_inj (hy.trans hy'.symm) (intLiteral_functional hl hl')]

/-- Everything in the value is carried. -/
def AllCarried (W : World) (o : EncOpts) (t : TId) (v : Val) : Prop := ∀ t' v', Within W.E t v t' v' → Carried W o t' v'

theorem allCarried_part {v : Val} (h : AllCarried W o t v) {t' : TId} {v' : Val} (hp : Part W.E t v t' v') : AllCarried W o t' v' :=
  fun t'' v'' hw => h t'' v'' (within_trans (.step .refl hp) hw)

theorem allCarried_within {v : Val} (h : AllCarried W o t v) {t' : TId} {v' : Val} (hp : Within W.E t v t' v') : AllCarried W o t' v' :=
  fun t'' v'' hw => h t'' v'' (within_trans hp hw)

theorem denotes_alike (hE : W'.E = W.E) (hU : W'.U = W.U) (hF : W'.fmt = W.fmt) (G : GoTypes W.E W.ptrTo) : ∀ (n : Nat) {t : TId} {ca q : Bool} {v v' : Val} {j : Json},
    sizeOf v < n → HasType W.E t v → HasType W.E t v' → AllCarried W o t v → AllCarried W o t v' →
    Denotes W M o t ca q v j → Denotes W' M' o t ca q v' j → Alike W o t v v' := by
  intro n
  induction n with
  | zero => intro t ca q v v' j h; omega
  | succ n ih =>
    intro t ca q v v' j hn hv hv' A A' h h'
    have C := A _ _ .refl
    have C' := A' _ _ .refl
    rcases C.special with hs | hs | hs
    · have hb := carried_byKind C hs ca
      have hb' : ByKind W'.E t ca := by rw [hE]; exact hb
      -- basic types
      by_cases hk : isBasicK (W.E t).kind = true
      · cases q with
        | false => exact basic_alike hE hF C C' hs hk hv hv' G h h'
        | true =>
          obtain ⟨j0, text, rfl, hd, hc⟩ := inv_quoted hb hk h
          obtain ⟨j0', text', e, hd', hc'⟩ := inv_quoted hb' (by rw [hE]; exact hk) h'
          cases e
          have := jsonText_unique (compact_isText hc) (compact_isText hc')
          subst this
          exact basic_alike hE hF C C' hs hk hv hv' G hd hd'
      · cases hkk : (W.E t).kind with
        | bool => rw [hkk] at hk; exact absurd rfl hk
        | int => rw [hkk] at hk; exact absurd rfl hk
        | float => rw [hkk] at hk; exact absurd rfl hk
        | string => rw [hkk] at hk; exact absurd rfl hk
        | other => exact absurd hkk C.other
        | iface k => exact absurd ⟨k, hkk⟩ C.iface
        | ptr e =>
          have hkk' : (W'.E t).kind = .ptr e := by rw [hE]; exact hkk
          rcases inv_ptr hb hkk h with ⟨rfl, rfl⟩ | ⟨x, rfl, hd⟩
          · rcases inv_ptr hb' hkk' h' with ⟨rfl, -⟩ | ⟨x', rfl, hd'⟩
            · exact .refl
            · have Cx := A' _ _ (.step .refl (.ptr hkk))
              have hn := C.ptr e hkk
              refine (not_null (fun hs => ?_) ?_ (by rw [hE]; exact hn) hd').elim
              · rw [hE] at hs ⊢; exact carried_byKind Cx hs true
              · rw [hE]; rcases Cx.special with h | h | h <;> (rw [h]; nofun)
          · rcases inv_ptr hb' hkk' h' with ⟨rfl, rfl⟩ | ⟨x', rfl, hd'⟩
            · exact absurd hd (carried_notNull (A _ _ (.step .refl (.ptr hkk))) (C.ptr e hkk))
            · have t1 : HasType W.E e x := by
                rcases has_ptr G hkk hv with h | ⟨y, h1, h2⟩
                · cases h
                · cases h1; exact h2
              have t2 : HasType W.E e x' := by
                rcases has_ptr G hkk hv' with h | ⟨y, h1, h2⟩
                · cases h
                · cases h1; exact h2
              exact .ptr hkk (ih (by simp at hn; omega) t1 t2 (allCarried_part A (.ptr hkk)) (allCarried_part A' (.ptr hkk)) hd hd')
        | slice e =>
          have hkk' : (W'.E t).kind = .slice e := by rw [hE]; exact hkk
          have := inv_tag hb hk (by rw [hkk]; nofun) h
          subst this
          by_cases he : ByteElem W.E e
          · rcases inv_bytes hb hkk he (C.slice e hkk) h with ⟨rfl, rfl⟩ | ⟨vs, b, text, rfl, rfl, ha, hx⟩
            · rcases inv_bytes hb' hkk' (by rw [hE]; exact he) (C.slice e hkk) h' with ⟨rfl, -⟩ | ⟨_, _, _, _, h, -⟩
              · exact .refl
              · cases h
            · rcases inv_bytes hb' hkk' (by rw [hE]; exact he) (C.slice e hkk) h' with ⟨-, h⟩ | ⟨vs', b', text', rfl, h, ha', hx'⟩
              · cases h
              · cases h
                have : b = b' := by
                  rcases hx with ⟨f1, hx⟩ | ⟨f1, hx⟩ <;> rcases hx' with ⟨f2, hx'⟩ | ⟨f2, hx'⟩
                  · exact isBase64_inj hx hx'
                  · rw [f1] at f2; cases f2
                  · rw [f1] at f2; cases f2
                  · rw [← strContent_kept (C.bytes e _ _ hkk he f1 rfl ha) hx, ← strContent_kept (C'.bytes e _ _ hkk he f1 rfl ha') hx']
                subst this
                rw [asBytes_inj ha ha']
                exact .refl
          · rcases inv_slice hb hkk he (C.slice e hkk) h with ⟨rfl, rfl⟩ | ⟨vs, js, rfl, rfl, hl, hd⟩
            · rcases inv_slice hb' hkk' (by rw [hE]; exact he) (C.slice e hkk) h' with ⟨rfl, -⟩ | ⟨_, _, _, h, -⟩
              · exact .refl
              · cases h
            · rcases inv_slice hb' hkk' (by rw [hE]; exact he) (C.slice e hkk) h' with ⟨-, h⟩ | ⟨vs', js', rfl, h, hl', hd'⟩
              · cases h
              · cases h
                refine .slice hkk (hl.symm.trans hl') fun i x x' hx hx' => ?_
                obtain ⟨jx, hj⟩ := getElem?_len hl.symm hx
                have m1 := List.mem_of_getElem? hx
                have m2 := List.mem_of_getElem? hx'
                have t1 : HasType W.E e x := by
                  rcases has_slice G hkk hv with h | ⟨y, h1, h2⟩
                  · cases h
                  · cases h1; exact h2 _ m1
                have t2 : HasType W.E e x' := by
                  rcases has_slice G hkk hv' with h | ⟨y, h1, h2⟩
                  · cases h
                  · cases h1; exact h2 _ m2
                refine ih (ca := true) (q := false) (j := jx) ?_ t1 t2 (allCarried_part A (.slice hkk m1)) (allCarried_part A' (.slice hkk m2)) (hd i _ _ hx hj) (hd' i _ _ hx' hj)
                have := List.sizeOf_lt_of_mem m1
                simp at hn; omega
        | array k e =>
          have hkk' : (W'.E t).kind = .array k e := by rw [hE]; exact hkk
          have := inv_tag hb hk (by rw [hkk]; nofun) h
          subst this
          rcases inv_array hb hkk h with ⟨vs, b, c, rfl, rfl, he, hf, ha, hx⟩ | ⟨vs, js, rfl, rfl, hl, hd⟩
          · rcases inv_array hb' hkk' h' with ⟨vs', b', c', rfl, h, -, -, ha', hx'⟩ | ⟨_, _, _, h, -⟩
            · cases h
              have : b = b' := by
                rw [← strContent_kept (C.byteArray _ e _ _ hkk he hf rfl ha) hx, ← strContent_kept (C'.byteArray _ e _ _ hkk he hf rfl ha') hx']
              subst this
              rw [asBytes_inj ha ha']
              exact .refl
            · cases h
          · rcases inv_array hb' hkk' h' with ⟨_, _, _, _, h, -⟩ | ⟨vs', js', rfl, h, hl', hd'⟩
            · cases h
            · cases h
              refine .array hkk (hl.symm.trans hl') fun i x x' hx hx' => ?_
              obtain ⟨jx, hj⟩ := getElem?_len hl.symm hx
              have m1 := List.mem_of_getElem? hx
              have m2 := List.mem_of_getElem? hx'
              have t1 : HasType W.E e x := by
                obtain ⟨y, h1, -, h2⟩ := has_array G hkk hv
                cases h1; exact h2 _ m1
              have t2 : HasType W.E e x' := by
                obtain ⟨y, h1, -, h2⟩ := has_array G hkk hv'
                cases h1; exact h2 _ m2
              refine ih (q := false) (j := jx) ?_ t1 t2 (allCarried_part A (.array hkk m1)) (allCarried_part A' (.array hkk m2)) (hd i _ _ hx hj) (hd' i _ _ hx' hj)
              have := List.sizeOf_lt_of_mem m1
              simp at hn; omega
        | map k e =>
          have hkk' : (W'.E t).kind = .map k e := by rw [hE]; exact hkk
          have := inv_tag hb hk (by rw [hkk]; nofun) h
          subst this
          obtain ⟨c1, c2, c3⟩ := C.map k e hkk
          rcases inv_map hb hkk c1 h with ⟨rfl, rfl⟩ | ⟨kvs, ms, ms', rfl, rfl, hl, hK, hV, hp⟩
          · rcases inv_map hb' hkk' c1 h' with ⟨rfl, -⟩ | ⟨_, _, _, _, h, -⟩
            · exact .refl
            · cases h
          · rcases inv_map hb' hkk' c1 h' with ⟨-, h⟩ | ⟨kvs', ns, ns', rfl, h, hl', hK', hV', hp'⟩
            · cases h
            · cases h
              have hperm : ms.Perm ns := hp.symm.trans hp'
              have hty := has_map G hkk hv
              have hty' := has_map G hkk hv'
              have P1 : Paired (fun kv (m : Bytes × Json) => KeyDenotes W' M' o k false kv.1 m.1 ∧ Denotes W' M' o e false false kv.2 m.2) kvs' ns :=
                paired_of_get hl'.symm fun i kv m h1 h2 => ⟨hK' i kv m h1 h2, hV' i kv m h1 h2⟩
              obtain ⟨perm, hperm', P2⟩ := perm_rel hperm P1
              obtain ⟨hlen, P2⟩ := paired_get P2
              have types : ∀ {kv kv'}, kv ∈ kvs → kv' ∈ perm → (HasType W.E k kv.1 ∧ HasType W.E e kv.2) ∧ HasType W.E k kv'.1 ∧ HasType W.E e kv'.2 := by
                intro kv kv' m1 m2
                have m2 := hperm'.mem_iff.mp m2
                rcases hty with h | ⟨_, h, h1, h2⟩
                · cases h
                · cases h
                  rcases hty' with h | ⟨_, h, h3, h4⟩
                  · cases h
                  · cases h; exact ⟨⟨h1 _ m1, h2 _ m1⟩, h3 _ m2, h4 _ m2⟩
              refine .map hkk hperm' (hl.symm.trans hlen.symm) (fun i kv kv' hx hx' => ?_) (fun i kv kv' hx hx' => ?_)
              · obtain ⟨m, hm⟩ := getElem?_len hl.symm hx
                have m1 := List.mem_of_getElem? hx
                have m2 := List.mem_of_getElem? hx'
                obtain ⟨⟨t1, -⟩, t2, -⟩ := types m1 m2
                exact key_eq hE c2 c3 t1 t2 G (A _ _ (.step .refl (.key hkk m1))) (A' _ _ (.step .refl (.key hkk (hperm'.mem_iff.mp m2))))
                  (hK i _ _ hx hm) (P2 i _ _ hx' hm).1
              · obtain ⟨m, hm⟩ := getElem?_len hl.symm hx
                have m1 := List.mem_of_getElem? hx
                have m2 := List.mem_of_getElem? hx'
                obtain ⟨⟨-, t1⟩, -, t2⟩ := types m1 m2
                refine ih ?_ t1 t2 (allCarried_part A (.elem hkk m1)) (allCarried_part A' (.elem hkk (hperm'.mem_iff.mp m2))) (hV i _ _ hx hm) (P2 i _ _ hx' hm).2
                have := List.sizeOf_lt_of_mem m1
                cases kv
                simp at hn this ⊢; omega
        | struct fs =>
          have := inv_tag hb hk (by rw [hkk]; nofun) h
          subst this
          have hst : IsStruct W.E t := ⟨fs, hkk⟩
          obtain ⟨l, kept, q1, x, j1, hl, hsub, hkeep, hat, hq, hd, rfl⟩ := inv_struct hb hst h
          obtain ⟨l', kept', q2, x', j2, hl', hsub', hkeep', hat', hq', hd', he⟩ := inv_struct hb' (by rw [hE]; exact hst) h'
          simp only [hE, hU] at hl' hq'
          rw [Json.obj.injEq] at he
          have k1 : ∀ m ∈ kept, ChosenField W.U.isLetter W.U.isDigit W.E t m := fun m hm => (hl.2 m).mp (hsub.subset hm)
          have k2 : ∀ m ∈ kept', ChosenField W.U.isLetter W.U.isDigit W.E t m := fun m hm => (hl'.2 m).mp (hsub'.subset hm)
          have e1 : ∀ m ∈ kept, m ∈ kept' ∧ j1 m = j2 m := by
            intro m hm
            have : (m.name, j1 m) ∈ kept'.map fun m => (m.name, j2 m) := by rw [← he]; exact List.mem_map_of_mem hm
            obtain ⟨m', hm', h2⟩ := List.mem_map.mp this
            simp only [Prod.mk.injEq] at h2
            have := chosen_eq hst (k1 m hm) (k2 m' hm') h2.1.symm
            subst this
            exact ⟨hm', h2.2.symm⟩
          have e2 : ∀ m ∈ kept', m ∈ kept := by
            intro m hm
            have : (m.name, j2 m) ∈ kept.map fun m => (m.name, j1 m) := by rw [he]; exact List.mem_map_of_mem hm
            obtain ⟨m', hm', h2⟩ := List.mem_map.mp this
            simp only [Prod.mk.injEq] at h2
            have := chosen_eq hst (k2 m hm) (k1 m' hm') h2.1.symm
            subst this
            exact hm'
          have in1 : ∀ m, ChosenField W.U.isLetter W.U.isDigit W.E t m → (m ∈ kept ↔ ¬ LeftOut o v m) := fun m hm => hkeep m ((hl.2 m).mpr hm)
          have in2 : ∀ m, ChosenField W.U.isLetter W.U.isDigit W.E t m → (m ∈ kept' ↔ ¬ LeftOut o v' m) := fun m hm => hkeep' m ((hl'.2 m).mpr hm)
          refine .struct hs hst (fun m hm => ?_) (fun m hm hno => ?_) (fun m y y' hm hno hy hy' => ?_)
          · have a := in1 m hm
            have b := in2 m hm
            have c : m ∈ kept ↔ m ∈ kept' := ⟨fun h => (e1 m h).1, e2 m⟩
            have d : ¬ LeftOut o v m ↔ ¬ LeftOut o v' m := by rw [← a, ← b, c]
            exact ⟨fun h => Classical.byContradiction fun h1 => d.mpr h1 h, fun h => Classical.byContradiction fun h1 => d.mp h1 h⟩
          · have h1 := (in1 m hm).mpr hno
            exact ⟨⟨_, hat m h1⟩, _, hat' m (e1 m h1).1⟩
          · have h1 := (in1 m hm).mpr hno
            obtain ⟨h2, h3⟩ := e1 m h1
            have := fieldAt_unique hy (hat m h1)
            subst this
            have := fieldAt_unique hy' (hat' m h2)
            subst this
            obtain ⟨t1, w1⟩ := chosen_field G hst hm hv hy
            obtain ⟨t2, w2⟩ := chosen_field G hst hm hv' hy'
            have hqq : q1 m = q2 m := by
              have a := hq m h1
              have b := hq' m h2
              rw [← b] at a
              exact Bool.eq_iff_iff.mpr a
            have D := hd m h1
            have D' := hd' m h2
            rw [h3, hqq] at D
            refine ih ?_ t1 t2 (allCarried_within A w1) (allCarried_within A' w2) D D'
            have := fieldAt_size hy
            omega
    · obtain ⟨-, d, rfl, hd⟩ := inv_duration hs h
      obtain ⟨-, d', rfl, hd'⟩ := inv_duration (by rw [hE]; exact hs) h'
      have : d = d' := by
        rcases C.duration hs with hf | hf
        · cases hd <;> simp_all
          cases hd' <;> simp_all
          exact Int64.toInt_inj.mp (Eq.symm ‹_›)
        · cases hd <;> simp_all
          cases hd' <;> simp_all
          exact Int64.toInt_inj.mp (intLiteral_functional ‹_› ‹_›)
      rw [this]
      exact .refl
    · obtain ⟨-, x, rfl, hd⟩ := inv_time hs h
      obtain ⟨-, x', rfl, hd'⟩ := inv_time (by rw [hE]; exact hs) h'
      obtain ⟨f1, f2⟩ := C.time hs
      obtain ⟨-, z1, z2⟩ := C.zone _ rfl
      obtain ⟨-, z1', z2'⟩ := C'.zone _ rfl
      have : x = x' := by
        cases hd with
        | nano _ _ h1 =>
          cases hd' with
          | nano _ _ h2 => exact rfc3339_inj h1 h2 z1 z1' z2 z2'
          | layout _ g => rw [f2] at g; cases g
          | rfc3339 _ g => rw [f2] at g; cases g
        | unix g => rw [f1] at g; cases g
        | layout _ g => rw [f2] at g; cases g
        | rfc3339 _ g => rw [f2] at g; cases g
      rw [this]
      exact .refl

end Main

end Jettison.Proofs
