import Verif.Proofs.WritesUnique
import Verif.Proofs.Order
import Verif.Props.Writes
import Verif.Props.Lossless

/-!
# C56: the text is determined

`Writes` (Spec/Writes) leaves no choice: of a value of a type of a Go program it allows at most one
text, if maps are sorted and no two entries of one map that are written differently have the same
key. So what it says about the text of a call is all there is to say.
-/

namespace Jettison.Props
open Jettison Jettison.Model Jettison.Spec Jettison.Proofs

variable {W : World} {M : MethV} {o : EncOpts} {t : TId} {ca q : Bool} {v : Val} {b b' : Bytes}

/-- The keys of one map are written differently. -/
structure KeysDiffer (W : World) (M : MethV) (o : EncOpts) (t : TId) (v : Val) : Prop where
  map : ∀ t' k e kvs, Within W.E t v t' (.map kvs) → (W.E t').kind = .map k e →
    kvs.Pairwise fun a b => ∀ x y, KeyWrites W M o k a.1 x → KeyWrites W M o k b.1 y → keyBody x ≠ keyBody y
  smap : ∀ t' kvs, Within W.E t v t' (.smap kvs) →
    kvs.Pairwise fun a b => ∀ x y, SyncKeyWrites W M o a.1 x → SyncKeyWrites W M o b.1 y → keyBody x ≠ keyBody y

/-- The entries of one map that are written with the same key are written with the same value. -/
structure KeysTold (W : World) (M : MethV) (o : EncOpts) (t : TId) (v : Val) : Prop where
  map : ∀ t' k e kvs, Within W.E t v t' (.map kvs) → (W.E t').kind = .map k e →
    kvs.Pairwise fun a b => ∀ x y p q, KeyWrites W M o k a.1 x → KeyWrites W M o k b.1 y → Writes W M o e false false a.2 p →
      Writes W M o e false false b.2 q → keyBody x = keyBody y → x = y ∧ p = q
  smap : ∀ t' kvs, Within W.E t v t' (.smap kvs) →
    kvs.Pairwise fun a b => ∀ x y p q d d' z z', SyncKeyWrites W M o a.1 x → SyncKeyWrites W M o b.1 y → a.2 = .iface d z → b.2 = .iface d' z' →
      Writes W M o d (isPtrK (W.E d).kind) false z p → Writes W M o d' (isPtrK (W.E d').kind) false z' q → keyBody x = keyBody y → x = y ∧ p = q

theorem KeysTold.part {t' : TId} {v' : Val} (h : KeysTold W M o t v) (hw : Within W.E t v t' v') : KeysTold W M o t' v' :=
  ⟨fun t'' k e kvs h' => h.map t'' k e kvs (within_trans hw h'), fun t'' kvs h' => h.smap t'' kvs (within_trans hw h')⟩

theorem KeysDiffer.told (h : KeysDiffer W M o t v) : KeysTold W M o t v where
  map t' k e kvs hw hk := (h.map t' k e kvs hw hk).imp fun hab x y _ _ hx hy _ _ he => absurd he (hab x y hx hy)
  smap t' kvs hw := (h.smap t' kvs hw).imp fun hab x y _ _ _ _ _ _ hx hy _ _ _ _ he => absurd he (hab x y hx hy)

/-! ## The rules for a kind -/

/-- Closes the rules for natively handled types. -/
macro "specialRest" : tactic => `(tactic| first | (simp_all; done) | (have hsp := ByKind.special ‹_›; simp_all; done))

theorem w_time (hs : (W.E t).special = some .time) (h : Writes W M o t ca q v b) : ∃ x, v = .time x ∧ HasYear x ∧ TimeText W o x b := by
  cases h with
  | time _ h0 h => exact ⟨_, rfl, h0, h⟩
  | _ => specialRest

theorem w_duration (hs : (W.E t).special = some .duration) (h : Writes W M o t ca q v b) : ∃ d, v = .int (.int64 d) ∧ DurationText W o d b := by
  cases h with
  | duration _ h => exact ⟨_, rfl, h⟩
  | _ => specialRest

theorem w_number (hs : (W.E t).special = some .number) (h : Writes W M o t ca q v b) : ∃ s, v = .str s ∧ b = if s = [] then b! "0" else s := by
  cases h with
  | number0 => exact ⟨_, rfl, rfl⟩
  | number _ h => exact ⟨_, rfl, (if_neg h).symm⟩
  | _ => specialRest

theorem w_raw (hs : (W.E t).special = some .rawMessage) (h : Writes W M o t ca q v b) :
    (v = .nil ∧ b = b! "null") ∨ ∃ vs x, v = .slice vs ∧ AsBytes vs x ∧ CopiedAs o x b := by
  cases h with
  | rawNil => exact .inl ⟨rfl, rfl⟩
  | raw _ h1 h2 => exact .inr ⟨_, _, rfl, h1, h2⟩
  | _ => specialRest

theorem w_smap (hs : (W.E t).special = some .syncMap) (h : Writes W M o t ca q v b) : ∃ kvs ms ms', v = .smap kvs ∧ b = objectOf ms' ∧
    ms.length = kvs.length ∧ (∀ (i : Nat) kv m, kvs[i]? = some kv → ms[i]? = some m → SyncKeyWrites W M o kv.1 m.1) ∧
    (∀ (i : Nat) kv m d x, kvs[i]? = some kv → ms[i]? = some m → kv.2 = .iface d x → Writes W M o d (isPtrK (W.E d).kind) false x m.2) ∧
    (∀ kv ∈ kvs, kv.2 ≠ .nil) ∧ InOrder o ms ms' := by
  cases h with
  | smap _ h1 h2 h3 h4 h5 => exact ⟨_, _, _, rfl, rfl, h1, h2, h3, h4, h5⟩
  | _ => specialRest

theorem w_meth {m : MethKind} (hs : (W.E t).special = none) (hp : Picks W.E t ca m) (h : Writes W M o t ca q v b) :
    (v = .nil ∧ b = b! "null" ∧ MethSet.Has (W.E t).meths m ∧ (IsPtr W.E t ∨ IsIface W.E t)) ∨
    ∃ rt x u, Receives W.E W.ptrTo t m v rt x u ∧ MethText M o rt x m b := by
  cases h with
  | methNil _ hp' h1 h2 => cases picks_unique hp hp'; exact .inl ⟨rfl, rfl, h1, h2⟩
  | meth _ hp' h1 h2 => cases picks_unique hp hp'; exact .inr ⟨_, _, _, h1, h2⟩
  | _ => first | exact (picks_byKind hp ‹_›).elim | (simp_all; done)

theorem w_scalar (hb : ByKind W.E t ca) (hk : isBasicK (W.E t).kind = true) (hw : Writes W M o t ca false v b) :
    (∃ x, v = .bool x ∧ b = if x then b! "true" else b! "false") ∨ (∃ x, v = .int x ∧ IntLiteral b (intOf x)) ∨
      (∃ w x, v = .float w x ∧ FloatText W.fmt w x b) ∨ ∃ s c, v = .str s ∧ SpelledAs o s c ∧ b = b! "\"" ++ c ++ b! "\"" := by
  cases hw with
  | yes => exact .inl ⟨_, rfl, rfl⟩
  | no => exact .inl ⟨_, rfl, rfl⟩
  | int _ _ h0 => exact .inr (.inl ⟨_, rfl, h0⟩)
  | float _ _ h0 => exact .inr (.inr (.inl ⟨_, _, rfl, h0⟩))
  | str _ _ h0 => exact .inr (.inr (.inr ⟨_, _, rfl, h0, rfl⟩))
  | struct _ hst => obtain ⟨fs, hf⟩ := hst; rw [HasFields] at hf; rw [hf] at hk; cases hk
  | _ => first | exact (picks_byKind ‹_› hb).elim | (have hsp := ByKind.special hb; simp_all; done) | (rw [‹(W.E t).kind = _›] at hk; cases hk)

theorem w_basic (hb : ByKind W.E t ca) (hk : isBasicK (W.E t).kind = true) (h : Writes W M o t ca false v b) (h' : Writes W M o t ca false v b') :
    b = b' := by
  rcases w_scalar hb hk h with ⟨x, rfl, h1⟩ | ⟨x, rfl, h1⟩ | ⟨w, x, rfl, h1⟩ | ⟨s, c, rfl, h1, h2⟩ <;>
    rcases w_scalar hb hk h' with ⟨x', e, h1'⟩ | ⟨x', e, h1'⟩ | ⟨w', x', e, h1'⟩ | ⟨s', c', e, h1', h2'⟩ <;> cases e
  · rw [h1, h1']
  · exact intLiteral_unique h1 h1'
  · exact floatText_unique h1 h1'
  · rw [h2, h2', spelledAs_unique h1 h1']

theorem w_quoted (hb : ByKind W.E t ca) (hk : isBasicK (W.E t).kind = true) (h : Writes W M o t ca true v b) :
    ((W.E t).kind ≠ .string ∧ ∃ c, Writes W M o t ca false v c ∧ b = b! "\"" ++ c ++ b! "\"") ∨
    ((W.E t).kind = .string ∧ ∃ s c, v = .str s ∧ SpelledAs o s c ∧ b = b! "\"\\\"" ++ c ++ b! "\\\"\"") := by
  cases h with
  | quoted _ _ h1 h2 => exact .inl ⟨h1, _, h2, rfl⟩
  | quotedStr _ h1 h2 => exact .inr ⟨h1, _, _, rfl, h2, rfl⟩
  | _ => first | exact (picks_byKind ‹_› hb).elim | (have hsp := ByKind.special hb; simp_all; done) | (rw [‹(W.E t).kind = _›] at hk; cases hk)

theorem w_ptr {e : TId} (hb : ByKind W.E t ca) (hk : (W.E t).kind = .ptr e) (h : Writes W M o t ca q v b) :
    (v = .nil ∧ b = b! "null") ∨ ∃ x, v = .ptr x ∧ Writes W M o e true q x b := by
  cases h with
  | ptrNil => exact .inl ⟨rfl, rfl⟩
  | ptr _ hk' hd => rw [hk] at hk'; cases hk'; exact .inr ⟨_, rfl, hd⟩
  | quoted _ hk' => rw [hk] at hk'; cases hk'
  | struct _ hst => exact absurd hst (not_struct hk (by simp))
  | _ => byKindRest hb

theorem w_iface {k : Nat} (hb : ByKind W.E t ca) (hk : (W.E t).kind = .iface k) (h : Writes W M o t ca false v b) :
    (v = .nil ∧ b = b! "null") ∨ ∃ d x, v = .iface d x ∧ Writes W M o d (isPtrK (W.E d).kind) false x b := by
  cases h with
  | ifaceNil => exact .inl ⟨rfl, rfl⟩
  | iface _ _ hd => exact .inr ⟨_, _, rfl, hd⟩
  | struct _ hst => exact absurd hst (not_struct hk (by simp))
  | _ => byKindRest hb

theorem w_slice {e : TId} (hb : ByKind W.E t ca) (hk : (W.E t).kind = .slice e) (he : ¬ ByteElem W.E e)
    (h : Writes W M o t ca false v b) : (v = .nil ∧ b = if bmHas o.flags .nilSliceEmpty then b! "[]" else b! "null") ∨
      ∃ vs bs, v = .slice vs ∧ b = b! "[" ++ commas bs ++ b! "]" ∧ bs.length = vs.length ∧
      ∀ (i : Nat) v j, vs[i]? = some v → bs[i]? = some j → Writes W M o e true false v j := by
  cases h with
  | sliceNil _ _ _ h => exact .inl ⟨rfl, by rw [h]; rfl⟩
  | sliceNil0 _ _ _ h => exact .inl ⟨rfl, by rw [h]; rfl⟩
  | slice _ hk' h1 h2 h3 => rw [hk] at hk'; cases hk'; exact .inr ⟨_, _, rfl, rfl, h2, h3⟩
  | bytes _ hk' h1 => rw [hk] at hk'; cases hk'; exact absurd h1 he
  | rawBytes _ hk' h1 => rw [hk] at hk'; cases hk'; exact absurd h1 he
  | bytesNil _ hk' h1 => rw [hk] at hk'; cases hk'; exact absurd h1 he
  | struct _ hst => exact absurd hst (not_struct hk (by simp))
  | _ => byKindRest hb

theorem w_bytes {e : TId} (hb : ByKind W.E t ca) (hk : (W.E t).kind = .slice e) (he : ByteElem W.E e)
    (h : Writes W M o t ca false v b) : (v = .nil ∧ b = b! "null") ∨ ∃ vs x c, v = .slice vs ∧ b = b! "\"" ++ c ++ b! "\"" ∧ AsBytes vs x ∧
      ((bmHas o.flags .rawByteSlice = false ∧ IsBase64 x c) ∨ (bmHas o.flags .rawByteSlice = true ∧ SpelledAs o x c)) := by
  cases h with
  | bytesNil => exact .inl ⟨rfl, rfl⟩
  | bytes _ _ _ h1 h2 h3 => exact .inr ⟨_, _, _, rfl, rfl, h2, .inl ⟨h1, h3⟩⟩
  | rawBytes _ _ _ h1 h2 h3 => exact .inr ⟨_, _, _, rfl, rfl, h2, .inr ⟨h1, h3⟩⟩
  | slice _ hk' h1 h2 h3 => rw [hk] at hk'; cases hk'; exact absurd he h1
  | sliceNil _ hk' h1 => rw [hk] at hk'; cases hk'; exact absurd he h1
  | sliceNil0 _ hk' h1 => rw [hk] at hk'; cases hk'; exact absurd he h1
  | struct _ hst => exact absurd hst (not_struct hk (by simp))
  | _ => byKindRest hb

theorem w_array {n : Nat} {e : TId} (hb : ByKind W.E t ca) (hk : (W.E t).kind = .array n e) (h : Writes W M o t ca false v b) :
    (∃ vs x c, v = .array vs ∧ b = b! "\"" ++ c ++ b! "\"" ∧ ByteElem W.E e ∧ bmHas o.flags .byteArrayAsString = true ∧ AsBytes vs x ∧ SpelledAs o x c) ∨
    ∃ vs bs, v = .array vs ∧ b = b! "[" ++ commas bs ++ b! "]" ∧ (ByteElem W.E e → bmHas o.flags .byteArrayAsString = false) ∧ bs.length = vs.length ∧
      ∀ (i : Nat) v j, vs[i]? = some v → bs[i]? = some j → Writes W M o e ca false v j := by
  cases h with
  | byteArray _ hk' h1 h2 h3 h4 => rw [hk] at hk'; cases hk'; exact .inl ⟨_, _, _, rfl, rfl, h1, h2, h3, h4⟩
  | array _ hk' h1 h2 h3 => rw [hk] at hk'; cases hk'; exact .inr ⟨_, _, rfl, rfl, h1, h2, h3⟩
  | struct _ hst => exact absurd hst (not_struct hk (by simp))
  | _ => byKindRest hb

theorem w_map {k e : TId} (hb : ByKind W.E t ca) (hk : (W.E t).kind = .map k e)
    (h : Writes W M o t ca false v b) : KeyType W.E k ∧ ((v = .nil ∧ b = if bmHas o.flags .nilMapEmpty then b! "{}" else b! "null") ∨
      ∃ kvs ms ms', v = .map kvs ∧ b = objectOf ms' ∧ ms.length = kvs.length ∧
      (∀ (i : Nat) kv m, kvs[i]? = some kv → ms[i]? = some m → KeyWrites W M o k kv.1 m.1) ∧
      (∀ (i : Nat) kv m, kvs[i]? = some kv → ms[i]? = some m → Writes W M o e false false kv.2 m.2) ∧ InOrder o ms ms') := by
  cases h with
  | mapNil _ hk' hkt h => rw [hk] at hk'; cases hk'; exact ⟨hkt, .inl ⟨rfl, by rw [h]; rfl⟩⟩
  | mapNil0 _ hk' hkt h => rw [hk] at hk'; cases hk'; exact ⟨hkt, .inl ⟨rfl, by rw [h]; rfl⟩⟩
  | map _ hk' hkt h1 h2 h3 h4 => rw [hk] at hk'; cases hk'; exact ⟨hkt, .inr ⟨_, _, _, rfl, rfl, h1, h2, h3, h4⟩⟩
  | struct _ hst => exact absurd hst (not_struct hk (by simp))
  | _ => byKindRest hb

theorem w_struct (hb : ByKind W.E t ca) (hs : IsStruct W.E t) (h : Writes W M o t ca false v b) :
    ∃ (l tried kept : List MField) (q' : MField → Bool) (x : MField → Val) (b' key : MField → Bytes) (c : Bytes),
      MembersOf W.U.isLetter W.U.isDigit W.E t l ∧ tried.Sublist l ∧ (∀ m ∈ l, m ∈ tried ↔ ¬ LeftOut o v m) ∧ (∀ m ∈ tried, FieldAt v m.path (x m)) ∧
      (∀ m ∈ tried, q' m = true ↔ HasOpt m.decl (b! "string") ∧ BasicOrPtr W.E m.decl.typ) ∧
      (∀ m, m ∈ tried → Writes W M o m.decl.typ ca (q' m) (x m) (b' m)) ∧
      kept.Sublist tried ∧ (∀ m ∈ tried, m ∈ kept ↔ ¬ NullDropped W.E m (b' m)) ∧ (∀ m ∈ kept, NamedAs o m.name (key m)) ∧ Lead tried kept c ∧
      b = b! "{" ++ c ++ commas (kept.map fun m => b! "\"" ++ key m ++ b! "\":" ++ b' m) ++ b! "}" := by
  obtain ⟨fs, hk⟩ := hs
  simp only [HasFields] at hk
  cases h with
  | struct _ _ h1 h2 h3 h4 h5 h6 h7 h8 h9 h10 => exact ⟨_, _, _, _, _, _, _, _, h1, h2, h3, h4, h5, h6, h7, h8, h9, h10, rfl⟩
  | _ => byKindRest hb

theorem w_tag (hb : ByKind W.E t ca) (hk : ¬ isBasicK (W.E t).kind = true) (hp : ∀ e, (W.E t).kind ≠ .ptr e) (h : Writes W M o t ca q v b) : q = false := by
  cases q with
  | false => rfl
  | true =>
    cases h with
    | quoted _ h => exact absurd h hk
    | quotedStr _ h => rw [h] at hk; exact absurd rfl hk
    | ptrNil _ h => exact absurd h (hp _)
    | ptr _ h => exact absurd h (hp _)
    | _ => first | exact (picks_byKind ‹_› hb).elim | (have hsp := ByKind.special hb; simp_all; done)

theorem w_kind (hb : ByKind W.E t ca) (h : Writes W M o t ca q v b) : (W.E t).kind ≠ .other := by
  intro hk
  cases h with
  | quoted _ h => rw [hk] at h; cases h
  | struct _ hst => exact absurd hst (not_struct hk (by simp))
  | _ => byKindRest hb

/-! ## Lists -/

/-- Two lists of texts of the same elements are equal. -/
theorem texts_unique {α β : Type} {R : α → β → Prop} {l : List α} {r r' : List β} (hl : r.length = l.length) (hl' : r'.length = l.length)
    (h : ∀ (i : Nat) x y, l[i]? = some x → r[i]? = some y → R x y) (h' : ∀ (i : Nat) x y, l[i]? = some x → r'[i]? = some y → R x y)
    (hu : ∀ x ∈ l, ∀ y y', R x y → R x y' → y = y') : r = r' := by
  refine List.ext_getElem (hl.trans hl'.symm) fun i h1 h2 => ?_
  have h3 : i < l.length := hl ▸ h1
  exact hu l[i] (List.getElem_mem _) _ _ (h i _ _ (List.getElem?_eq_getElem h3) (List.getElem?_eq_getElem h1))
    (h' i _ _ (List.getElem?_eq_getElem h3) (List.getElem?_eq_getElem h2))

theorem byteLe_antisymm : ∀ {a b : Bytes}, ByteLe a b → ByteLe b a → a = b
  | [], [], _, _ => rfl
  | [], _ :: _, _, h => h.elim
  | _ :: _, [], h, _ => h.elim
  | x :: a, y :: b, h, h' => by
    rcases h with h | ⟨rfl, h⟩
    · rcases h' with h' | ⟨rfl, _⟩
      · exact absurd (UInt8.lt_iff_toNat_lt.mp h) (by have := UInt8.lt_iff_toNat_lt.mp h'; omega)
      · exact absurd h (UInt8.lt_irrefl _)
    · rcases h' with h' | ⟨_, h'⟩
      · exact absurd h' (UInt8.lt_irrefl _)
      · rw [byteLe_antisymm h h']

/-- The order of the entries is determined. -/
theorem inOrder_unique {ms a b : List (Bytes × Bytes)} (hu : bmHas o.flags .unsortedMap = false)
    (hd : ms.Pairwise fun x y => keyBody x.1 = keyBody y.1 → x = y) (ha : InOrder o ms a) (hb : InOrder o ms b) : a = b := by
  refine List.Perm.eq_of_pairwise (le := fun x y : Bytes × Bytes => ByteLe (keyBody x.1) (keyBody y.1)) ?_ (ha.2 hu).1 (hb.2 hu).1 (ha.1.trans hb.1.symm)
  intro x y hx hy h1 h2
  exact pairwise_all hd (fun _ _ => rfl) (fun _ _ h e => (h e.symm).symm) _ (ha.1.mem_iff.mp hx) _ (hb.1.mem_iff.mp hy) (byteLe_antisymm h1 h2)

theorem pairwise_texts {α β : Type} {R : α → β → Prop} {S : β → β → Prop} {l : List α} {r : List β} (hl : r.length = l.length)
    (h : ∀ (i : Nat) x y, l[i]? = some x → r[i]? = some y → R x y) (hp : l.Pairwise fun a b => ∀ x y, R a x → R b y → S x y) : r.Pairwise S := by
  rw [List.pairwise_iff_getElem] at hp ⊢
  intro i j hi hj hij
  have hi' : i < l.length := hl ▸ hi
  have hj' : j < l.length := hl ▸ hj
  exact hp i j hi' hj' hij _ _ (h i _ _ (List.getElem?_eq_getElem hi') (List.getElem?_eq_getElem hi)) (h j _ _ (List.getElem?_eq_getElem hj') (List.getElem?_eq_getElem hj))

/-- Sublists of a list without duplicates are determined by their elements. -/
theorem sublist_unique {α : Type} {l a b : List α} (hn : l.Nodup) (ha : a.Sublist l) (hb : b.Sublist l) (h : ∀ x ∈ l, x ∈ a ↔ x ∈ b) : a = b := by
  induction l generalizing a b with
  | nil => rw [List.sublist_nil.mp ha, List.sublist_nil.mp hb]
  | cons z l ih =>
    rw [List.nodup_cons] at hn
    cases ha with
    | cons _ ha =>
      cases hb with
      | cons _ hb => exact ih hn.2 ha hb fun x hx => h x (List.mem_cons_of_mem _ hx)
      | cons_cons _ hb => exact absurd (ha.subset ((h z List.mem_cons_self).mpr List.mem_cons_self)) hn.1
    | cons_cons _ ha =>
      cases hb with
      | cons _ hb => exact absurd (hb.subset ((h z List.mem_cons_self).mp List.mem_cons_self)) hn.1
      | cons_cons _ hb =>
        rename_i a' b'
        refine congrArg _ (ih hn.2 ha hb fun x hx => ?_)
        have := h x (List.mem_cons_of_mem _ hx)
        have hne : x ≠ z := fun e => hn.1 (e ▸ hx)
        simpa [hne] using this

theorem membersOf_nodup {letter digit : Nat → Bool} {E : Env} {l : List MField} (h : MembersOf letter digit E t l) : l.Nodup :=
  h.1.imp fun hab e => by subst e; exact pathLt_asymm hab hab

theorem membersOf_unique {letter digit : Nat → Bool} {E : Env} {l l' : List MField} (h : MembersOf letter digit E t l)
    (h' : MembersOf letter digit E t l') : l = l' := by
  refine List.Perm.eq_of_pairwise (le := fun a b : MField => PathLt a.path b.path) (fun a b _ _ h1 h2 => (pathLt_asymm h1 h2).elim) h.1 h'.1 ?_
  exact (List.perm_ext_iff_of_nodup (membersOf_nodup h) (membersOf_nodup h')).mpr fun m => (h.2 m).trans (h'.2 m).symm

theorem lead_unique {tried kept : List MField} {c c' : Bytes} (h : Lead tried kept c) (h' : Lead tried kept c') : c = c' := by
  cases h with
  | none h1 =>
    cases h' with
    | none => rfl
    | comma h2 h3 => exact (h1.elim h2 h3).elim
  | comma h2 h3 =>
    cases h' with
    | none h1 => exact (h1.elim h2 h3).elim
    | comma => rfl

theorem fieldAt_size {v x : Val} {path : List Nat} (h : FieldAt v path x) : sizeOf x < sizeOf v := by
  have mem : ∀ {vs : List Val} {i : Nat} {x : Val}, vs[i]? = some x → sizeOf x < sizeOf (Val.struct vs) := by
    intro vs i x hx
    have := List.sizeOf_lt_of_mem (List.mem_of_getElem? hx)
    simp only [Val.struct.sizeOf_spec]
    omega
  induction h with
  | last hx => exact mem hx
  | embed hx _ ih => exact Nat.lt_trans ih (mem hx)
  | deref hx _ ih =>
    have := mem hx
    simp only [Val.ptr.sizeOf_spec] at this
    omega

theorem asBytes_unique {vs : List Val} {x y : Bytes} (h : AsBytes vs x) (h' : AsBytes vs y) : x = y := by
  have h := h.symm.trans h'
  exact (List.map_inj_right (fun a b e => by cases e; rfl)).mp h

/-! ## Values -/

/-- The text of smaller values is determined. -/
def UniqueBelow (W : World) (M : MethV) (o : EncOpts) (n : Nat) : Prop :=
  ∀ t ca q v b b', sizeOf v < n → HasType W.E t v → KeysTold W M o t v → Writes W M o t ca q v b → Writes W M o t ca q v b' → b = b'

theorem key_unique {kt : TId} {x : Val} (ih : ∀ b b', Writes W M o kt false false x b → Writes W M o kt false false x b' → b = b')
    (h : KeyWrites W M o kt x b) (h' : KeyWrites W M o kt x b') : b = b' := by
  cases h with
  | str h1 h2 =>
    cases h' with
    | str _ h3 => rw [spelledAs_unique h2 h3]
    | text h | quoted h => exact absurd h1 h
  | nilText h1 h2 h3 =>
    cases h' with
    | nilText => rfl
    | text _ _ h => exact absurd rfl (h h3)
    | quoted _ h => rw [h] at h2; cases h2
  | text h1 h2 h3 h4 =>
    cases h' with
    | str h => exact absurd h h1
    | nilText _ _ h => exact absurd rfl (h3 h)
    | text _ _ _ h => exact ih _ _ h4 h
    | quoted _ h => rw [h] at h2; cases h2
  | quoted h1 h2 h4 =>
    cases h' with
    | str h => exact absurd h h1
    | nilText _ h => rw [h] at h2; cases h2
    | text _ h => rw [h] at h2; cases h2
    | quoted _ _ h => rw [ih _ _ h4 h]

theorem skey_unique {y : Val} (ih : ∀ kt x b b', y = .iface kt x → Writes W M o kt (isPtrK (W.E kt).kind) false x b →
      Writes W M o kt (isPtrK (W.E kt).kind) false x b' → b = b')
    (h : SyncKeyWrites W M o y b) (h' : SyncKeyWrites W M o y b') : b = b' := by
  cases h with
  | str h1 h2 =>
    cases h' with
    | str _ h3 => rw [spelledAs_unique h2 h3]
    | text h => exact absurd h1 h
    | quoted h => rw [h] at h1; cases h1
  | text h1 h2 h4 =>
    cases h' with
    | str h => exact absurd h h1
    | text _ _ h => exact ih _ _ _ _ rfl h4 h
    | quoted _ h => rw [h] at h2; cases h2
  | quoted h1 h2 h4 =>
    cases h' with
    | str h => rw [h] at h1; cases h1
    | text _ h => rw [h] at h2; cases h2
    | quoted _ _ h => rw [ih _ _ _ _ rfl h4 h]

theorem unique_step (G : GoTypes W.E W.ptrTo) (hP : PathFree M) (hu : bmHas o.flags .unsortedMap = false) {n : Nat} (ih : UniqueBelow W M o n)
    (hn : sizeOf v = n) (ht : HasType W.E t v) (hd : KeysTold W M o t v) (h : Writes W M o t ca q v b) (h' : Writes W M o t ca q v b') : b = b' := by
  have part : ∀ {t' : TId} {v' : Val} {ca q : Bool} {b b' : Bytes}, Part W.E t v t' v' → sizeOf v' < sizeOf v →
      Writes W M o t' ca q v' b → Writes W M o t' ca q v' b' → b = b' := fun hp hs h h' =>
    ih _ _ _ _ _ _ (hn ▸ hs) (part_type G ht hp) (hd.part (.step .refl hp)) h h'
  cases hs : (W.E t).special with
  | some s =>
    cases s with
    | time =>
      obtain ⟨x, rfl, -, h1⟩ := w_time hs h
      obtain ⟨x', e, -, h2⟩ := w_time hs h'
      cases e
      exact timeText_unique h1 h2
    | duration =>
      obtain ⟨x, rfl, h1⟩ := w_duration hs h
      obtain ⟨x', e, h2⟩ := w_duration hs h'
      cases e
      exact durationText_unique h1 h2
    | number =>
      obtain ⟨x, rfl, h1⟩ := w_number hs h
      obtain ⟨x', e, h2⟩ := w_number hs h'
      cases e
      rw [h1, h2]
    | rawMessage =>
      rcases w_raw hs h with ⟨rfl, h1⟩ | ⟨vs, x, rfl, h1, h2⟩ <;> rcases w_raw hs h' with ⟨e, h1'⟩ | ⟨vs', x', e, h1', h2'⟩ <;> cases e
      · rw [h1, h1']
      · rw [asBytes_unique h1 h1'] at h2
        exact copiedAs_unique h2 h2'
    | syncMap =>
      obtain ⟨kvs, ms, ms', rfl, rfl, h1, h2, h3, h4, h5⟩ := w_smap hs h
      obtain ⟨kvs', mt, mt', e, rfl, h1', h2', h3', h4', h5'⟩ := w_smap hs h'
      cases e
      have small : ∀ {kv : Val × Val}, kv ∈ kvs → sizeOf kv.1 < sizeOf (Val.smap kvs) ∧ sizeOf kv.2 < sizeOf (Val.smap kvs) := by
        intro kv hkv
        have := List.sizeOf_lt_of_mem hkv
        have e : sizeOf kv = 1 + sizeOf kv.1 + sizeOf kv.2 := by cases kv; simp
        simp only [Val.smap.sizeOf_spec]
        omega
      have kuniq : ∀ kv ∈ kvs, ∀ x y, SyncKeyWrites W M o kv.1 x → SyncKeyWrites W M o kv.1 y → x = y := by
        intro kv hkv x y hx hy
        refine skey_unique (fun kt z c c' e => part (.skey hkv e) ?_) hx hy
        have := (small hkv).1
        rw [e] at this
        simp only [Val.iface.sizeOf_spec] at this
        omega
      have hdyn : ∀ kv ∈ kvs, ∃ d x, kv.2 = .iface d x := by
        intro kv hkv
        have hx : InIface W.E kv.2 := by
          cases ht with
          | smap _ _ hx => exact hx kv hkv
          | iface _ hx => cases hx
        rcases inIface_cases hx with e | ⟨d, x, e, -⟩
        · exact absurd e (h4 kv hkv)
        · exact ⟨d, x, e⟩
      have heq : ms = mt := by
        refine texts_unique (R := fun (kv : Val × Val) (m : Bytes × Bytes) => SyncKeyWrites W M o kv.1 m.1 ∧
          ∀ d x, kv.2 = .iface d x → Writes W M o d (isPtrK (W.E d).kind) false x m.2) h1 h1'
          (fun i kv m ha hb => ⟨h2 i kv m ha hb, fun d x => h3 i kv m d x ha hb⟩) (fun i kv m ha hb => ⟨h2' i kv m ha hb, fun d x => h3' i kv m d x ha hb⟩) ?_
        intro kv hkv m m' ⟨a1, a2⟩ ⟨b1, b2⟩
        obtain ⟨d, x, e⟩ := hdyn kv hkv
        refine Prod.ext (kuniq kv hkv _ _ a1 b1) (part (.selem hkv e) ?_ (a2 d x e) (b2 d x e))
        have := (small hkv).2
        rw [e] at this
        simp only [Val.iface.sizeOf_spec] at this
        omega
      subst heq
      rw [inOrder_unique hu (pairwise_texts (R := fun (kv : Val × Val) (m : Bytes × Bytes) => SyncKeyWrites W M o kv.1 m.1 ∧
        ∃ d z, kv.2 = .iface d z ∧ Writes W M o d (isPtrK (W.E d).kind) false z m.2) h1 (fun i kv m ha hb => ⟨h2 i kv m ha hb, by
          obtain ⟨d, z, e⟩ := hdyn kv (List.mem_of_getElem? ha)
          exact ⟨d, z, e, h3 i kv m d z ha hb e⟩⟩)
        ((hd.smap _ _ .refl).imp fun hab x y ⟨hx, d, z, e, hz⟩ ⟨hy, d', z', e', hz'⟩ he =>
          Prod.ext_iff.mpr (hab _ _ _ _ _ _ _ _ hx hy e e' hz hz' he))) h5 h5']
  | none =>
    rcases picks_or_byKind (ca := ca) hs with hb | ⟨m, hm⟩
    · by_cases hk : isBasicK (W.E t).kind = true
      · cases q with
        | false => exact w_basic hb hk h h'
        | true =>
          rcases w_quoted hb hk h with ⟨h1, c, h2, rfl⟩ | ⟨h1, s, c, rfl, h2, rfl⟩ <;> rcases w_quoted hb hk h' with ⟨h1', c', h2', rfl⟩ | ⟨h1', s', c', e, h2', rfl⟩
          · rw [w_basic hb hk h2 h2']
          · exact absurd h1' h1
          · exact absurd h1 h1'
          · cases e; rw [spelledAs_unique h2 h2']
      · cases hkk : (W.E t).kind with
        | bool | int | float | string => rw [hkk] at hk; exact absurd rfl hk
        | other => exact absurd hkk (w_kind hb h)
        | ptr e =>
          rcases w_ptr hb hkk h with ⟨rfl, rfl⟩ | ⟨x, rfl, h1⟩ <;> rcases w_ptr hb hkk h' with ⟨e, rfl⟩ | ⟨x', e, h1'⟩ <;> cases e
          · rfl
          · exact part (.ptr hkk) (by simp) h1 h1'
        | iface k =>
          have := w_tag hb hk (by simp [hkk]) h
          subst this
          rcases w_iface hb hkk h with ⟨rfl, rfl⟩ | ⟨d, x, rfl, h1⟩ <;> rcases w_iface hb hkk h' with ⟨e, rfl⟩ | ⟨d', x', e, h1'⟩ <;> cases e
          · rfl
          · exact part .iface (by simp only [Val.iface.sizeOf_spec]; omega) h1 h1'
        | slice e =>
          have := w_tag hb hk (by simp [hkk]) h
          subst this
          by_cases he : ByteElem W.E e
          · rcases w_bytes hb hkk he h with ⟨rfl, rfl⟩ | ⟨vs, x, c, rfl, rfl, h1, h2⟩ <;>
              rcases w_bytes hb hkk he h' with ⟨e, rfl⟩ | ⟨vs', x', c', e, rfl, h1', h2'⟩ <;> cases e
            · rfl
            · rw [asBytes_unique h1 h1'] at h2
              rcases h2 with ⟨f, h2⟩ | ⟨f, h2⟩ <;> rcases h2' with ⟨f', h2'⟩ | ⟨f', h2'⟩
              · rw [base64_unique h2 h2']
              · rw [f] at f'; cases f'
              · rw [f] at f'; cases f'
              · rw [spelledAs_unique h2 h2']
          · rcases w_slice hb hkk he h with ⟨rfl, rfl⟩ | ⟨vs, bs, rfl, rfl, h1, h2⟩ <;>
              rcases w_slice hb hkk he h' with ⟨e, rfl⟩ | ⟨vs', bs', e, rfl, h1', h2'⟩ <;> cases e
            · rfl
            · rw [texts_unique h1 h1' h2 h2' fun x hx y y' ha hb => part (.slice hkk hx) (by
                have := List.sizeOf_lt_of_mem hx
                simp only [Val.slice.sizeOf_spec]
                omega) ha hb]
        | array k e =>
          have := w_tag hb hk (by simp [hkk]) h
          subst this
          rcases w_array hb hkk h with ⟨vs, x, c, rfl, rfl, g1, g2, g3, g4⟩ | ⟨vs, bs, rfl, rfl, g1, g2, g3⟩ <;>
            rcases w_array hb hkk h' with ⟨vs', x', c', e', rfl, g1', g2', g3', g4'⟩ | ⟨vs', bs', e', rfl, g1', g2', g3'⟩ <;> cases e'
          · rw [asBytes_unique g3 g3'] at g4
            rw [spelledAs_unique g4 g4']
          · rw [g1' g1] at g2; cases g2
          · rw [g1 g1'] at g2'; cases g2'
          · rw [texts_unique g2 g2' g3 g3' fun x hx y y' ha hb => part (.array hkk hx) (by
                have := List.sizeOf_lt_of_mem hx
                simp only [Val.array.sizeOf_spec]
                omega) ha hb]
        | map k e =>
          have := w_tag hb hk (by simp [hkk]) h
          subst this
          rcases (w_map hb hkk h).2 with ⟨rfl, rfl⟩ | ⟨kvs, ms, ms', rfl, rfl, h1, h2, h3, h5⟩ <;>
            rcases (w_map hb hkk h').2 with ⟨e, rfl⟩ | ⟨kvs', mt, mt', e, rfl, h1', h2', h3', h5'⟩ <;> cases e
          · rfl
          · have small : ∀ {kv : Val × Val}, kv ∈ kvs → sizeOf kv.1 < sizeOf (Val.map kvs) ∧ sizeOf kv.2 < sizeOf (Val.map kvs) := by
              intro kv hkv
              have := List.sizeOf_lt_of_mem hkv
              have e : sizeOf kv = 1 + sizeOf kv.1 + sizeOf kv.2 := by cases kv; simp
              simp only [Val.map.sizeOf_spec]
              omega
            have heq : ms = mt := by
              refine texts_unique (R := fun (kv : Val × Val) (m : Bytes × Bytes) => KeyWrites W M o k kv.1 m.1 ∧ Writes W M o _ false false kv.2 m.2) h1 h1'
                (fun i kv m ha hb => ⟨h2 i kv m ha hb, h3 i kv m ha hb⟩) (fun i kv m ha hb => ⟨h2' i kv m ha hb, h3' i kv m ha hb⟩) ?_
              intro kv hkv m m' ⟨a1, a2⟩ ⟨b1, b2⟩
              exact Prod.ext (key_unique (fun c c' => part (.key hkk hkv) (small hkv).1) a1 b1) (part (.elem hkk hkv) (small hkv).2 a2 b2)
            subst heq
            rw [inOrder_unique hu (pairwise_texts (R := fun (kv : Val × Val) (m : Bytes × Bytes) => KeyWrites W M o k kv.1 m.1 ∧ Writes W M o _ false false kv.2 m.2) h1
              (fun i kv m ha hb => ⟨h2 i kv m ha hb, h3 i kv m ha hb⟩)
              ((hd.map _ _ _ _ .refl hkk).imp fun hab x y hx hy he => Prod.ext_iff.mpr (hab _ _ _ _ hx.1 hy.1 hx.2 hy.2 he))) h5 h5']
        | struct fs =>
          have := w_tag hb hk (by simp [hkk]) h
          subst this
          have hst : IsStruct W.E t := ⟨fs, hkk⟩
          obtain ⟨l, tried, kept, q', x, c, key, lead, a1, a2, a3, a4, a5, a6, a7, a8, a9, a10, rfl⟩ := w_struct hb hst h
          obtain ⟨l2, tried2, kept2, q2, x2, c2, key2, lead2, b1, b2, b3, b4, b5, b6, b7, b8, b9, b10, rfl⟩ := w_struct hb hst h'
          cases membersOf_unique a1 b1
          have hnd := membersOf_nodup a1
          cases sublist_unique hnd a2 b2 fun m hm => (a3 m hm).trans (b3 m hm).symm
          have hc : ∀ m ∈ tried, c m = c2 m := by
            intro m hm
            have e1 := fieldAt_unique (a4 m hm) (b4 m hm)
            have e2 : q' m = q2 m := Bool.eq_iff_iff.mpr ((a5 m hm).trans (b5 m hm).symm)
            have w1 := a6 m hm
            have w2 := b6 m hm
            rw [← e1, ← e2] at w2
            obtain ⟨_, _, _, _, _, hpath, hprom, -⟩ := (a1.2 m).mp (a2.subset hm)
            have hw := fieldAt_type G (a4 m hm) hst ht (promoted_type hst hprom)
            exact ih _ _ _ _ _ _ (hn ▸ fieldAt_size (a4 m hm)) hw.1 (hd.part hw.2) w1 w2
          cases sublist_unique (hnd.sublist a2) a7 b7 fun m hm => by rw [a8 m hm, b8 m hm, hc m hm]
          rw [lead_unique a10 b10]
          have : kept.map (fun m => b! "\"" ++ key m ++ b! "\":" ++ c m) = kept.map (fun m => b! "\"" ++ key2 m ++ b! "\":" ++ c2 m) :=
            List.map_congr_left fun m hm => by rw [namedAs_unique (a9 m hm) (b9 m hm), hc m (a7.subset hm)]
          rw [this]
    · rcases w_meth hs hm h with ⟨rfl, rfl, g1, g2⟩ | ⟨rt, x, u, g1, g2⟩ <;> rcases w_meth hs hm h' with ⟨e, rfl, g1', g2'⟩ | ⟨rt', x', u', g1', g2'⟩
      · rfl
      · exfalso
        cases g1' with
        | own _ n1 n2 => exact g2.elim (fun h => n2 h rfl) n1
        | addr n1 => exact n1 g1
      · subst e
        exfalso
        cases g1 with
        | own _ n1 n2 => exact g2'.elim (fun h => n2 h rfl) n1
        | addr n1 => exact n1 g1'
      · obtain ⟨rfl, rfl, -⟩ := receives_unique g1 g1'
        exact methText_unique hP g2 g2'

/-- C56: the description leaves no choice. Of a value at most one text is allowed. -/
theorem C56_unique (G : GoTypes W.E W.ptrTo) (hP : PathFree M) (hu : bmHas o.flags .unsortedMap = false) (ht : HasType W.E t v)
    (hd : KeysTold W M o t v) (h : Writes W M o t ca q v b) (h' : Writes W M o t ca q v b') : b = b' := by
  have key : ∀ n, UniqueBelow W M o n := by
    intro n
    induction n with
    | zero => intro _ _ _ _ _ _ h; exact absurd h (Nat.not_lt_zero _)
    | succ n ihn =>
      intro t ca q v b b' hl ht hd h h'
      refine unique_step G hP hu (n := sizeOf v) (fun _ _ _ _ _ _ hs => ihn _ _ _ _ _ _ (by omega)) rfl ht hd h h'
  exact key _ _ _ _ _ _ _ (Nat.lt_succ_self _) ht hd h h'

/-- C56: the text a call returns without error is the one that is described, and no other is. -/
theorem C56_exact {H : Heap} (D : WriteReady W H M) (hP : PathFree M) {w : Addr} (hx : ReprE W.E H.mem (some (t, w)) (.iface t v)) (hf : TimesFine W t v)
    (hd : KeysTold W M o t v) {opts : List (Option Opt)} (ho : prepare opts = .ok o) (hu : bmHas o.flags .unsortedMap = false) {n : Nat}
    (h : marshalOpts W H n (some (t, w)) opts = .ret (some b) none) (c : Bytes) : Writes W M o t (isPtrK (W.E t).kind) false v c ↔ c = b := by
  have h1 := (C56_bytes D hx hf ho).1 b h
  have ht : HasType W.E t v := by
    cases repr_inIface hx with
    | val h => exact h
  exact ⟨fun h2 => C56_unique D.ready.types hP hu ht hd h2 h1, fun e => e ▸ h1⟩

/-! ## Plain keys -/

theorem w_int {k : IntK} {x : IntVal} (hb : ByKind W.E t ca) (hk : (W.E t).kind = .int k) (h : Writes W M o t ca false (.int x) b) : IntLiteral b (intOf x) := by
  generalize hv : Val.int x = v at h
  cases h with
  | int _ _ h0 => cases hv; exact h0
  | struct _ hst => exact absurd hst (not_struct hk (by simp))
  | _ => byKindRest hb

theorem spelled_differ {s s' r r' : Bytes} (hs : ValidUtf8 s) (hs' : ValidUtf8 s') (hne : s ≠ s') (h : SpelledAs o s r) (h' : SpelledAs o s' r') : r ≠ r' := by
  rintro rfl
  obtain ⟨r1, h1, e1⟩ := encodeString_spelled o s
  obtain ⟨r2, h2, e2⟩ := encodeString_spelled o s'
  refine hne (keyBody_string (e := o.esc) hs hs' ?_)
  rw [e1, e2, spelledAs_unique h1 h, spelledAs_unique h2 h']

/-- Plain keys are written differently. -/
theorem keysDiffer_plain (h : AllPlain W.E t v) : KeysDiffer W M o t v := by
  constructor
  · intro t' k e kvs hw hk
    rcases h.map t' k e kvs hw hk with ⟨ss, h1, h2, h3, h4⟩ | ⟨xs, h1, h3, h4⟩
    · have hall : All2 (fun s (kv : Val × Val) => s ∈ ss ∧ kv.1 = .str s ∧ (W.E k).kind = .string) ss kvs := by
        refine all2_of_index (by omega) fun i s kv hs hkv => ?_
        obtain ⟨kt, ⟨rfl, he⟩, hks⟩ := h4 i kv s hkv hs
        exact ⟨List.mem_of_getElem? hs, he.symm, hks⟩
      refine hall.pairwise ?_ h1
      rintro s s' a b hne ⟨m1, ha, hks⟩ ⟨m2, hb, -⟩ x y hx hy he
      have inv : ∀ {z x}, KeyWrites W M o k (.str z) x → ∃ r, SpelledAs o z r ∧ keyBody x = r := by
        intro z x hx
        generalize hv : Val.str z = v at hx
        cases hx with
        | str _ hr => cases hv; exact ⟨_, hr, keyBody_quotes _⟩
        | nilText h | text h | quoted h => exact absurd hks h
      rw [ha] at hx
      rw [hb] at hy
      obtain ⟨r, r1, e1⟩ := inv hx
      obtain ⟨r', r1', e2⟩ := inv hy
      exact spelled_differ (h2 s m1) (h2 s' m2) hne r1 r1' (e1.symm.trans (he.trans e2))
    · have hall : All2 (fun x (kv : Val × Val) => kv.1 = .int x ∧ ∃ kk, (W.E k).kind = .int kk ∧ ByKind W.E k false) xs kvs := by
        refine all2_of_index (by omega) fun i s kv hs hkv => ?_
        obtain ⟨kt, kk, ⟨rfl, he⟩, hks, hbk⟩ := h4 i kv s hkv hs
        exact ⟨he.symm, kk, hks, hbk⟩
      refine hall.pairwise ?_ h1
      rintro s s' a b hne ⟨ha, kk, hks, hbk⟩ ⟨hb, -⟩ x y hx hy he
      have inv : ∀ {z x}, KeyWrites W M o k (.int z) x → IntLiteral (keyBody x) (intOf z) := by
        intro z x hx
        generalize hv : Val.int z = v at hx
        cases hx with
        | str h => rw [hks] at h; cases h
        | nilText => cases hv
        | text _ h => rw [byKind_noText hbk] at h; cases h
        | quoted _ _ hw => subst hv; rw [keyBody_quotes]; exact w_int hbk hks hw
      rw [ha] at hx
      rw [hb] at hy
      have := inv hy
      rw [← he] at this
      exact hne (intLiteral_functional (inv hx) this)
  · intro t' kvs hw
    rcases h.smap t' kvs hw with ⟨ss, h1, h2, h3, h4⟩ | ⟨xs, h1, h3, h4⟩
    · have hall : All2 (fun s (kv : Val × Val) => s ∈ ss ∧ ∃ kt, kv.1 = .iface kt (.str s) ∧ (W.E kt).kind = .string) ss kvs := by
        refine all2_of_index (by omega) fun i s kv hs hkv => ?_
        obtain ⟨kt, he, hks⟩ := h4 i kv s hkv hs
        exact ⟨List.mem_of_getElem? hs, kt, he, hks⟩
      refine hall.pairwise ?_ h1
      rintro s s' a b hne ⟨m1, kt, ha, hks⟩ ⟨m2, kt', hb, hks'⟩ x y hx hy he
      have inv : ∀ {kt z x}, (W.E kt).kind = .string → SyncKeyWrites W M o (.iface kt (.str z)) x → ∃ r, SpelledAs o z r ∧ keyBody x = r := by
        intro kt z x hks hx
        generalize hv : Val.iface kt (.str z) = v at hx
        cases hx with
        | str _ hr => cases hv; exact ⟨_, hr, keyBody_quotes _⟩
        | text h => cases hv; exact absurd hks h
        | quoted h => cases hv; rw [hks] at h; cases h
      rw [ha] at hx
      rw [hb] at hy
      obtain ⟨r, r1, e1⟩ := inv hks hx
      obtain ⟨r', r1', e2⟩ := inv hks' hy
      exact spelled_differ (h2 s m1) (h2 s' m2) hne r1 r1' (e1.symm.trans (he.trans e2))
    · have hall : All2 (fun x (kv : Val × Val) => ∃ kt, kv.1 = .iface kt (.int x) ∧ ∃ kk, (W.E kt).kind = .int kk ∧ ByKind W.E kt false) xs kvs := by
        refine all2_of_index (by omega) fun i s kv hs hkv => ?_
        obtain ⟨kt, kk, he, hks, hbk⟩ := h4 i kv s hkv hs
        exact ⟨kt, he, kk, hks, hbk⟩
      refine hall.pairwise ?_ h1
      rintro s s' a b hne ⟨kt, ha, kk, hks, hbk⟩ ⟨kt', hb, kk', hks', hbk'⟩ x y hx hy he
      have inv : ∀ {kt kk z x}, (W.E kt).kind = .int kk → ByKind W.E kt false → SyncKeyWrites W M o (.iface kt (.int z)) x → IntLiteral (keyBody x) (intOf z) := by
        intro kt kk z x hks hbk hx
        generalize hv : Val.iface kt (.int z) = v at hx
        cases hx with
        | str h => cases hv
        | text _ h => cases hv; rw [byKind_noText hbk] at h; cases h
        | quoted _ _ hw => cases hv; rw [keyBody_quotes]; rw [hks] at hw; exact w_int hbk hks hw
      rw [ha] at hx
      rw [hb] at hy
      have := inv hks' hbk' hy
      rw [← he] at this
      exact hne (intLiteral_functional (inv hks hbk hx) this)

end Jettison.Props
