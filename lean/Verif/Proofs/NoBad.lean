import Verif.Proofs.Refine

/-! # Instructions that fit never misread memory -/

namespace Jettison.Proofs
open Jettison Jettison.Model Jettison.Spec

variable {W : World} {H : Heap} {M : MethV} {o : EncOpts}

theorem unsorted_nobad {α : Type} {kf vf : Nat → α → Bytes → Res} : ∀ (l : List α) (n : Nat) (dst : Bytes),
    (∀ a ∈ l, ∀ n dst, kf n a dst ≠ .bad) → (∀ a ∈ l, ∀ n dst, vf n a dst ≠ .bad) → unsortedLoop kf vf n l dst ≠ .bad
  | [], _, _, _, _ => by simp [unsortedLoop]
  | a :: l, n, dst, hk, hv => by
    simp only [unsortedLoop]
    split
    · split
      · exact unsorted_nobad l _ _ (fun a ha => hk a (by simp [ha])) (fun a ha => hv a (by simp [ha]))
      · exact hv a (by simp) _ _
    · exact hk a (by simp) _ _

theorem sorted_nobad {α : Type} {kf vf : Nat → α → Bytes → Res} :
    ∀ (l : List α) (n : Nat) (dst : Bytes) (mel : List (Bytes × Bytes)),
    (∀ a ∈ l, ∀ n dst, kf n a dst ≠ .bad) → (∀ a ∈ l, ∀ n dst, vf n a dst ≠ .bad) → sortedLoop kf vf n l dst mel ≠ .stop .bad
  | [], _, _, _, _, _ => by simp [sortedLoop]
  | a :: l, n, dst, mel, hk, hv => by
    simp only [sortedLoop]
    split
    · split
      · simp
      · split
        · split
          · simp
          · exact sorted_nobad l _ _ _ (fun a ha => hk a (by simp [ha])) (fun a ha => hv a (by simp [ha]))
        · simp only [ne_eq, Coll.stop.injEq]; exact hv a (by simp) _ _
    · simp only [ne_eq, Coll.stop.injEq]; exact hk a (by simp) _ _

theorem entries_nobad {α : Type} {kf vf : Nat → α → Bytes → Res} (l : List α) (dst : Bytes)
    (hk : ∀ a ∈ l, ∀ n dst, kf n a dst ≠ .bad) (hv : ∀ a ∈ l, ∀ n dst, vf n a dst ≠ .bad) :
    encodeEntries W o kf vf l dst ≠ .bad := by
  simp only [encodeEntries]
  split
  · simp
  · split
    · exact unsorted_nobad _ _ _ hk hv
    · simp only [encodeSorted]
      have := sorted_nobad l 0 [] [] hk hv
      split
      · simp
      · simp
      · next r _ hs => intro hr; rw [hs, hr] at this; exact this rfl

/-- Recursive calls do not misread. -/
def Sound (W : World) (H : Heap) (rec : Rec) : Prop :=
  ∀ {t ca i p v}, Typed W.E t ca i → Repr W.E H.mem t p v → (ca = true → isPtrK (W.E t).kind = true ∨ InHeap p) →
    ∀ path dst, rec path i p dst ≠ .bad

def SoundE (W : World) (H : Heap) (rec : Rec) : Prop :=
  ∀ {t w v i}, ReprE W.E H.mem (some (t, w)) (.iface t v) → instrFor W.E W.tfuel t = some i →
    ∀ path dst, rec path i (.heap w) dst ≠ .bad

theorem appendJSON_nobad {rec : Rec} (hE : SoundE W H rec) {x : Eface} {v : Val}
    (h : ReprE W.E H.mem x v) (path : Path) (dst : Bytes) : appendJSON W rec path x dst ≠ .bad := by
  cases h with
  | nil => simp [appendJSON]
  | @direct t w v hd hr =>
    simp only [appendJSON]
    cases hi : instrFor W.E W.tfuel t with
    | none => simp
    | some i => exact hE (.direct hd hr) hi _ _
  | @indirect t w v hd hr =>
    simp only [appendJSON]
    cases hi : instrFor W.E W.tfuel t with
    | none => simp
    | some i => exact hE (.indirect hd hr) hi _ _

theorem syncMapKey_nobad {pt : TId → TId} (G : GoTypes W.E pt) {rec : Rec} (hE : SoundE W H rec) {x : Eface} {v : Val}
    (h : ReprE W.E H.mem x v) (path : Path) (dst : Bytes) : appendSyncMapKey W H o rec path x dst ≠ .bad := by
  have key : ∀ t w v, ReprE W.E H.mem (some (t, w)) (.iface t v) → appendSyncMapKey W H o rec path (some (t, w)) dst ≠ .bad := by
    intro t w v h
    simp only [appendSyncMapKey]
    split
    · simp
    · split
      · next hs =>
        have hk := isStringK_iff.mp hs
        cases h with
        | direct hd _ => exact absurd hd (direct_not_string hk)
        | indirect _ hr =>
          obtain ⟨s, rfl, hat⟩ := repr_str G hk hr
          simp [withRead, readStr, hat]
      · split
        · simp
        · exact appendJSON_nobad hE h _ _
  cases h with
  | nil => simp [appendSyncMapKey]
  | direct hd hr => exact key _ _ _ (.direct hd hr)
  | indirect hd hr => exact key _ _ _ (.indirect hd hr)

theorem arrayLoop_nobad {rec : Rec} {path : Path} {ins : Instr} {es : Nat} {p : Loc} :
    ∀ (n i : Nat) (dst : Bytes), (∀ j, j < n → ∀ path dst, rec path ins (p.add ((i + j) * es)) dst ≠ .bad) →
    arrayLoop rec path ins es p i n dst ≠ .bad
  | 0, i, dst, _ => by simp [arrayLoop]
  | n + 1, i, dst, h => by
    simp only [arrayLoop]
    split
    · apply arrayLoop_nobad n
      intro j hj
      have := h (j + 1) (by omega)
      rwa [show i + 1 + j = i + (j + 1) by omega]
    · have := h 0 (by omega); simp only [Nat.add_zero] at this; exact this _ _

theorem bytesOf_some {E : Env} {m : Mem} {pt : TId → TId} (G : GoTypes E pt) {e : TId} (hk : (E e).kind = .int .uint8) : ∀ {vs : List Val},
    (∀ x ∈ vs, ∃ p, Repr E m e p x) → ∃ b, bytesOf vs = some b
  | [], _ => ⟨[], rfl⟩
  | v :: vs, h => by
    obtain ⟨b, hb⟩ := bytesOf_some G hk (vs := vs) (fun x hx => h x (List.mem_cons_of_mem _ hx))
    obtain ⟨p, hp⟩ := h v (by simp)
    obtain ⟨x, rfl, hx, _⟩ := repr_int G hk hp
    cases x <;> simp [IntVal.kind] at hx
    exact ⟨_, by simp only [bytesOf, hb, Option.map_some]; rfl⟩

theorem encodeArray_nobad {pt : TId → TId} (G : GoTypes W.E pt) {rec : Rec} {path : Path} {ins : Instr} {e : TId} {p : Loc} {isba : Bool}
    (hb : isba = true → (W.E e).kind = .int .uint8) {vs : List Val}
    (hvs : ∀ (i : Nat) x, vs[i]? = some x → Repr W.E H.mem e (p.add (i * (W.E e).size)) x)
    (h : ∀ (j : Nat), j < vs.length → ∀ path dst, rec path ins (p.add (j * (W.E e).size)) dst ≠ .bad) (dst : Bytes) :
    encodeArray H o rec path ins (W.E e).size vs.length isba p dst ≠ .bad := by
  simp only [encodeArray]
  split
  · next hc =>
    simp only [Bool.and_eq_true] at hc
    have hk := hb hc.1
    have h1 := readBytesAt_eq (m := H.mem) hk G vs p (by
      intro i x hx
      have := hvs i x hx
      rwa [G.byteSize _ hk] at this)
    obtain ⟨b, hb⟩ := bytesOf_some (m := H.mem) G hk (vs := vs) (fun x hx => by
      obtain ⟨i, hi⟩ := List.getElem?_of_mem hx
      exact ⟨_, hvs i x hi⟩)
    rw [h1, hb]
    simp [withRead]
  · apply arrayLoop_nobad
    intro j hj
    simpa using h j hj

theorem emptyV_some {E : Env} {m : Mem} {pt : TId → TId} {t : TId} {p : Loc} {v : Val} (G : GoTypes E pt) (h : Repr E m t p v) :
    ∃ b, emptyV (emptyFuncOf (E t).kind) v = some b := by
  cases hkk : (E t).kind with
  | bool => obtain ⟨b, rfl, hat⟩ := repr_bool G hkk h; simp [emptyFuncOf, emptyV]
  | int k => obtain ⟨b, rfl, hb, hat⟩ := repr_int G hkk h; simp [emptyFuncOf, emptyV, hb]
  | float w => obtain ⟨b, rfl, hat⟩ := repr_float G hkk h; simp [emptyFuncOf, emptyV]
  | string => obtain ⟨b, rfl, hat⟩ := repr_str G hkk h; simp [emptyFuncOf, emptyV]
  | iface n => obtain ⟨x, hx, hr⟩ := repr_iface G hkk h; cases hr <;> simp [emptyFuncOf, emptyV]
  | struct fs => simp [emptyFuncOf, emptyV]
  | map k e => rcases repr_map G hkk h with ⟨rfl, hat⟩ | ⟨a, es, kvs, rfl, _⟩ <;> simp [emptyFuncOf, emptyV]
  | slice e => rcases repr_slice G hkk h with ⟨rfl, hat⟩ | ⟨a, vs, rfl, _⟩ <;> simp [emptyFuncOf, emptyV]
  | array n e => by_cases hn : n = 0 <;> simp [emptyFuncOf, hn, emptyV]
  | ptr e => rcases repr_ptr G hkk h with ⟨rfl, hat⟩ | ⟨a, x, rfl, _⟩ <;> simp [emptyFuncOf, emptyV]
  | other => simp [emptyFuncOf, emptyV]

theorem isNilV_some {E : Env} {m : Mem} {pt : TId → TId} {t : TId} {p : Loc} {v : Val} (G : GoTypes E pt)
    (hk : isNilable (E t).kind = true) (h : Repr E m t p v) : ∃ b, isNilV v = some b := by
  cases hkk : (E t).kind with
  | ptr e => rcases repr_ptr G hkk h with ⟨rfl, hat⟩ | ⟨a, x, rfl, _⟩ <;> simp [isNilV]
  | map k e => rcases repr_map G hkk h with ⟨rfl, hat⟩ | ⟨a, _, _, rfl, _⟩ <;> simp [isNilV]
  | slice e => rcases repr_slice G hkk h with ⟨rfl, hat⟩ | ⟨a, _, rfl, _⟩ <;> simp [isNilV]
  | iface n => obtain ⟨x, hx, hr⟩ := repr_iface G hkk h; cases hr <;> simp [isNilV]
  | _ => simp [hkk, isNilable] at hk

theorem fieldV_some (R : Ready W H M) {t : TId} {ca : Bool} {l : Loc} {v : Val} (hv : Repr W.E H.mem t l v)
    (ht : IsStruct W.E t) {f : FInstr} {ftyp : TId} (hf : FieldOk W.E t ca f ftyp) (hr : RouteOk W.E W.U t f.fld) :
    fieldV o f v ≠ none := by
  obtain ⟨u, i, sf, hp, -⟩ := hr
  have hty := promoted_type ht hp
  have : sf.typ = ftyp := by have := hf.typ; rw [hty] at this; simpa using this
  subst this
  have hw := walk_route R.types hv hp
  simp only [fieldV]
  split
  · simp
  · generalize walk H.mem f.fld.embedSeq l = A at hw
    generalize routeV v f.fld.index = B at hw ⊢
    cases hw with
    | nil => simp
    | @found l' v' hrep hheap =>
      simp only
      have h1 : ∃ b, (if f.omitNil = true then isNilV v' else some false) = some b := by
        split
        · next ho => exact isNilV_some R.types (hf.omitNil ho) hrep
        · exact ⟨_, rfl⟩
      obtain ⟨b, hb⟩ := h1
      rw [hb]
      cases b with
      | true => simp
      | false =>
        cases he : f.empty with
        | none => simp
        | some e =>
          have h2 : ∃ b, emptyV e v' = some b := by rw [hf.empty e he]; exact emptyV_some R.types hrep
          obtain ⟨b, hb⟩ := h2
          simp only [hb]
          cases b <;> simp

theorem structLoop_nobad (R : Ready W H M) {rec : Rec} (hA : Sound W H rec) {t : TId} {ca : Bool} {l : Loc}
    {v : Val} (hv : Repr W.E H.mem t l v) (ht : IsStruct W.E t) (hca : ca = true → InHeap l) {path : Path} :
    ∀ (fs : List FInstr) (i : Nat) (first : Bool) (dst : Bytes),
    (∀ f ∈ fs, (∃ ftyp, FieldOk W.E t ca f ftyp) ∧ RouteOk W.E W.U t f.fld) →
    structLoop H o rec path l i fs first dst ≠ .bad
  | [], _, _, _, _ => by simp [structLoop]
  | f :: fs, i, first, dst, h => by
    obtain ⟨⟨ftyp, hf⟩, hr⟩ := h f (by simp)
    have ih := fun i first dst => structLoop_nobad R hA hv ht hca (path := path) fs i first dst (fun g hg => h g (by simp [hg]))
    simp only [structLoop]
    rcases fieldLoc_eq (o := o) R hv ht hf hr with ⟨h1, h2⟩ | ⟨h1, h2⟩ | ⟨l', v', h1, h2, hrep, hheap⟩
    · exact absurd h2 (fieldV_some R hv ht hf hr)
    · simp only [h1]; exact ih _ _ _
    · simp only [h1]
      split
      · split <;> exact ih _ _ _
      · exact hA hf.instr hrep (fun hc => .inr (hheap (hca hc))) _ _

theorem callMeth_nobad {m : MethKind} {t : TId} {call : Option Ctx → Bytes → MethRes} {dst : Bytes} :
    callMeth W o m t call dst ≠ .bad := by
  cases m <;> simp only [callMeth]
  · split <;> simp
  · split <;> simp
  · split
    · simp only [relayJSON]; split
      · simp
      · split <;> simp
    · simp
    · simp
  · split <;> simp

theorem marshaler_nobad (R : Ready W H M) {t : TId} {ca : Bool} {m : MethKind} {hp : Bool} {p : Loc} {v : Val}
    (hty : Typed W.E t ca (.marshaler m t hp)) (hr : Repr W.E H.mem t p v)
    (hca : ca = true → isPtrK (W.E t).kind = true ∨ InHeap p) (path : Path) (dst : Bytes) :
    encodeMarshaler W H o path m t hp p dst ≠ .bad := by
  rw [marshaler_eq R hty hr hca]
  simp only [encodeMarshalerV]
  cases hty with
  | marshP hn hm hc hk hs =>
    have hpk := R.types.ptrTo_kind t
    simp only [Bool.not_true, Bool.false_and, Bool.false_eq_true, if_false, if_true, receiverV, hpk, ifaceK]
    exact callMeth_nobad
  | marsh hhas hs =>
    have hany := has_any hhas
    simp only [Bool.not_false, Bool.true_and, Bool.false_eq_true, if_false, receiverV]
    cases hkk : (W.E t).kind with
    | iface n =>
      obtain ⟨x, hat, hx⟩ := repr_iface R.types hkk hr
      simp only [isPtrK, ifaceK, Option.isSome_some, Bool.or_true, if_true]
      cases hx with
      | nil => simp
      | direct hd hrep => exact callMeth_nobad
      | indirect hd hrep => exact callMeth_nobad
    | _ =>
      simp only [isPtrK, ifaceK, Option.isSome_none, Bool.or_false, if_true, Bool.false_eq_true, if_false]
      first
        | exact callMeth_nobad
        | (split
           · simp
           · exact callMeth_nobad)

theorem bres_nobad {r : BRes} {e : Err} {dst : Bytes} : r.res e dst ≠ .bad := by cases r <;> simp [BRes.res]
theorem except_nobad {r : Except Unit Bytes} {e : Err} {dst : Bytes} : exceptRes r e dst ≠ .bad := by
  cases r <;> simp [exceptRes]

theorem visit_get {α : Type} {path : Path} {l : List α} {x : α} (h : x ∈ W.visit path l) : ∃ i : Nat, l[i]? = some x := by
  exact List.getElem?_of_mem (visit_mem h)

theorem byteSliceOf_some {E : Env} {m : Mem} {pt : TId → TId} {t e : TId} {p : Loc} {v : Val} (G : GoTypes E pt)
    (hk : (E t).kind = .slice e) (he : (E e).kind = .int .uint8) (h : Repr E m t p v) : ∃ b, byteSliceOf v = some b := by
  rcases repr_slice G hk h with ⟨rfl, hat⟩ | ⟨d, vs, rfl, hat, hd, hvs⟩
  · exact ⟨_, rfl⟩
  · obtain ⟨b, hb⟩ := bytesOf_some (m := m) G he (vs := vs) (fun x hx => by
      obtain ⟨i, hi⟩ := List.getElem?_of_mem hx
      exact ⟨_, hvs i x hi⟩)
    simp only [byteSliceOf, hb]
    exact ⟨_, rfl⟩

theorem get_lt {α β : Type} {l : List α} {l' : List β} (h : l.length = l'.length) {i : Nat} {x : α} (hx : l[i]? = some x) :
    ∃ y, l'[i]? = some y := by
  obtain ⟨hi, _⟩ := List.getElem?_eq_some_iff.mp hx
  exact ⟨l'[i], by rw [List.getElem?_eq_getElem]⟩

theorem special_nobad (R : Ready W H M) {rec : Rec} (hE : SoundE W H rec) {t : TId} {s : Special} {p : Loc}
    {v : Val} (hs : (W.E t).special = some s) (hr : Repr W.E H.mem t p v) (path : Path) (dst : Bytes) :
    encodeSpecial W H o rec path s p dst ≠ .bad := by
  cases s with
  | syncMap =>
    obtain ⟨es, kvs, rfl, hat, hl, hk, hv⟩ := repr_smap R.types hs hr
    simp only [encodeSpecial, encodeSyncMap, readSyncMap, hat, withRead]
    apply entries_nobad
    · intro a ha n dst
      obtain ⟨i, hi⟩ := visit_get ha
      obtain ⟨kv, hkv⟩ := get_lt hl hi
      exact syncMapKey_nobad R.types hE (hk i a kv hi hkv) _ _
    · intro a ha n dst
      obtain ⟨i, hi⟩ := visit_get ha
      obtain ⟨kv, hkv⟩ := get_lt hl hi
      exact appendJSON_nobad hE (hv i a kv hi hkv) _ _
  | time =>
    obtain ⟨x, rfl, hat⟩ := repr_time R.types hs hr
    simp only [encodeSpecial, readTime, hat, withRead]; exact bres_nobad
  | duration =>
    obtain ⟨x, rfl, hk, hat⟩ := repr_int R.types (R.types.duration _ hs) hr
    cases x <;> simp [IntVal.kind] at hk
    simp only [encodeSpecial, readInt, hat, withRead, IntVal.kind, if_true]; exact bres_nobad
  | number =>
    obtain ⟨x, rfl, hat⟩ := repr_str R.types (R.types.number _ hs) hr
    simp only [encodeSpecial, readStr, hat, withRead]; exact except_nobad
  | rawMessage =>
    obtain ⟨e, hk, he⟩ := R.types.rawMessage _ hs
    obtain ⟨b, hb⟩ := byteSliceOf_some R.types hk he hr
    simp only [encodeSpecial, readByteSlice_eq R.types hk he hr, hb, withRead]
    simp

theorem exec_nobad (R : Ready W H M) {rec : Rec} (hA : Sound W H rec) (hE : SoundE W H rec)
    {t : TId} {ca : Bool} {i : Instr} {p : Loc} {v : Val} (hty : Typed W.E t ca i) (hr : Repr W.E H.mem t p v)
    (hca : ca = true → isPtrK (W.E t).kind = true ∨ InHeap p) (path : Path) (dst : Bytes) :
    exec W H o rec path i p dst ≠ .bad := by
  cases hty with
  | goType hs => exact special_nobad R hE hs hr path dst
  | marsh h hs => exact marshaler_nobad R (.marsh h hs) hr hca path dst
  | marshP hn hm h hk hs => exact marshaler_nobad R (.marshP hn hm h hk hs) hr hca path dst
  | bool hk => obtain ⟨b, rfl, hat⟩ := repr_bool R.types hk hr; simp [exec, readBool, hat, withRead]
  | int hk =>
    obtain ⟨b, rfl, hkk, hat⟩ := repr_int R.types hk hr
    simp [exec, readInt, hat, withRead, hkk]
  | float hk =>
    obtain ⟨b, rfl, hat⟩ := repr_float R.types hk hr
    simp only [exec, readFloat, hat, withRead, if_true]; exact except_nobad
  | string hk => obtain ⟨b, rfl, hat⟩ := repr_str R.types hk hr; simp [exec, readStr, hat, withRead]
  | quotedString hk => obtain ⟨b, rfl, hat⟩ := repr_str R.types hk hr; simp [exec, readStr, hat, withRead]
  | @quoted _ _ j hi =>
    simp only [exec]
    split
    · simp
    · exact hA hi hr hca _ _
  | nilText hp hi =>
    cases hkk : (W.E t).kind with
    | ptr e =>
      have := hA hi hr hca path dst
      rcases repr_ptr R.types hkk hr with ⟨rfl, hat⟩ | ⟨a, x, rfl, hat, ha, hx⟩
      · simp [exec, readWord, hat, withRead]
      · simpa [exec, readWord, hat, withRead, ha] using this
    | _ => simp [hkk, isPtrK] at hp
  | @iface _ _ n hk hany =>
    obtain ⟨x, hat, -, hx⟩ := repr_eface R.types hk hany hr
    simp only [exec, hat, withRead]
    have hj := appendJSON_nobad hE hx path dst
    cases hx with
    | nil => simp
    | direct hd hrep => simpa using hj
    | indirect hd hrep => simpa using hj
  | struct hk hs =>
    have hst : IsStruct W.E t := by
      revert hk
      cases hkk : (W.E t).kind <;> simp [isStructK]
      exact ⟨_, hkk⟩
    simp only [exec]
    split
    · simp
    · cases hfl : structFieldsInstr W.E W.U W.grow W.sort W.tfuel t ca with
      | none => simp
      | some fl =>
        obtain ⟨l, hl, _, hok⟩ := structFieldsInstr_ok hfl
        have hroute := structFields_route R.tab (R.apart t) R.sort hl
        apply structLoop_nobad R hA hr hst
        · intro hc
          rcases hca hc with h | h
          · obtain ⟨fs, hfs⟩ := hst
            simp only [HasFields] at hfs
            simp [hfs, isPtrK] at h
          · exact h
        · intro f hf
          exact ⟨(hok f hf).2, hroute _ (hok f hf).1⟩
  | map hk hkm hki hvi =>
    rcases repr_map R.types hk hr with ⟨rfl, hat⟩ | ⟨a, es, kvs, rfl, hat, ha, hat2, hl, hks, hvs⟩
    · simp [exec, encodeMap, readWord, hat, withRead]
    · simp only [exec, encodeMap, readWord, hat, withRead, ha, if_false, readMap, hat2]
      split
      · simp
      · apply entries_nobad
        · intro x hx n dst
          obtain ⟨i, hi⟩ := visit_get hx
          obtain ⟨kv, hkv⟩ := get_lt hl hi
          exact hA hki (hks i x kv hi hkv) (by simp) _ _
        · intro x hx n dst
          obtain ⟨i, hi⟩ := visit_get hx
          obtain ⟨kv, hkv⟩ := get_lt hl hi
          exact hA hvi (hvs i x kv hi hkv) (by simp) _ _
  | byteSlice hk he =>
    obtain ⟨b, hb⟩ := byteSliceOf_some R.types hk he hr
    simp only [exec, readByteSlice_eq R.types hk he hr, hb, withRead]
    simp
  | slice hk hi =>
    rcases repr_slice R.types hk hr with ⟨rfl, hat⟩ | ⟨d, vs, rfl, hat, hd, hvs⟩
    · simp [exec, readSlice, hat, withRead]
    · simp only [exec, readSlice, hat, withRead, hd, if_false]
      split
      · simp
      · apply encodeArray_nobad R.types (by simp)
        · intro i x hx
          simpa [Loc.add] using hvs i x hx
        · intro j hj path dst
          have := hvs j vs[j] (by rw [List.getElem?_eq_getElem])
          exact hA hi (p := (Loc.heap d).add _) (by simpa [Loc.add] using this)
            (fun _ => .inr (inHeap_add ⟨d, hd, rfl⟩ _)) path dst
  | array hk hb hi =>
    obtain ⟨vs, rfl, rfl, hvs⟩ := repr_array R.types hk hr
    simp only [exec]
    apply encodeArray_nobad R.types hb hvs
    intro j hj path dst
    refine hA hi (hvs j vs[j] (by rw [List.getElem?_eq_getElem])) (fun hc => .inr (inHeap_add ?_ _)) path dst
    rcases hca hc with h | h
    · simp [hk, isPtrK] at h
    · exact h
  | ptr hk hi =>
    rcases repr_ptr R.types hk hr with ⟨rfl, hat⟩ | ⟨a, x, rfl, hat, ha, hx⟩
    · simp [exec, readWord, hat, withRead]
    · simp only [exec, readWord, hat, withRead, ne_eq, ha, not_false_iff, if_true]
      exact hA hi hx (fun _ => .inr ⟨a, ha, rfl⟩) path dst
  | unsupported => simp [exec]

theorem run_sound (R : Ready W H M) : ∀ n, Sound W H (run W H o n) ∧ SoundE W H (run W H o n)
  | 0 => ⟨fun _ _ _ _ _ => by simp [run], fun _ _ _ _ => by simp [run]⟩
  | n + 1 => by
    obtain ⟨hA, hE⟩ := run_sound R n
    have hA' : Sound W H (run W H o (n + 1)) := fun hty hr hca path dst => exec_nobad R hA hE hty hr hca path dst
    refine ⟨hA', ?_⟩
    intro t w v i hx hi path dst
    obtain ⟨rank, hrank, hlt⟩ := R.nest
    have hdir := isInlined_iff hrank W.tfuel t (hlt t)
    obtain ⟨j, hj, rfl⟩ := instrFor_cases hi
    cases hx with
    | direct hd hr =>
      rw [if_pos (hdir.mpr hd)]
      simp only [run, exec]
      exact hA hj hr (fun h => .inl h) path dst
    | indirect hd hr =>
      rw [if_neg (fun h => pointed_not_inlined hd (hdir.mp h))]
      exact hA' hj hr (fun h => .inl h) path dst

end Jettison.Proofs
