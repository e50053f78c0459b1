import Verif.Proofs.Walk

/-! # The encoder on memory is the encoder on values -/

namespace Jettison.Proofs
open Jettison Jettison.Model Jettison.Spec

/-! ## Loops over entries -/

theorem visit_map {α β : Type} (W : World) (path : Path) (f : α → β) (l : List α) :
    W.visit path (l.map f) = (W.visit path l).map f := by
  simp only [World.visit, List.length_map, List.map_filterMap, List.getElem?_map]

theorem visit_mem {α : Type} {W : World} {path : Path} {l : List α} {x : α} (h : x ∈ W.visit path l) : x ∈ l := by
  simp only [World.visit, List.mem_filterMap] at h
  obtain ⟨i, _, h⟩ := h
  exact List.mem_of_getElem? h

theorem unsortedLoop_map {α β : Type} (f : α → β) (kf vf : Nat → β → Bytes → Res) : ∀ (l : List α) (n : Nat) (dst : Bytes),
    unsortedLoop kf vf n (l.map f) dst = unsortedLoop (fun n a => kf n (f a)) (fun n a => vf n (f a)) n l dst
  | [], _, _ => rfl
  | a :: l, n, dst => by
    simp only [List.map_cons, unsortedLoop]
    split
    · split
      · exact unsortedLoop_map f kf vf l _ _
      · rfl
    · rfl

theorem sortedLoop_map {α β : Type} (f : α → β) (kf vf : Nat → β → Bytes → Res) :
    ∀ (l : List α) (n : Nat) (dst : Bytes) (mel : List (Bytes × Bytes)),
    sortedLoop kf vf n (l.map f) dst mel = sortedLoop (fun n a => kf n (f a)) (fun n a => vf n (f a)) n l dst mel
  | [], _, _, _ => rfl
  | a :: l, n, dst, mel => by
    simp only [List.map_cons, sortedLoop]
    split
    · split
      · rfl
      · split
        · split
          · rfl
          · exact sortedLoop_map f kf vf l _ _ _
        · rfl
    · rfl

theorem encodeEntries_map {α β : Type} (W : World) (o : EncOpts) (f : α → β) (kf vf : Nat → β → Bytes → Res) (l : List α)
    (dst : Bytes) : encodeEntries W o kf vf (l.map f) dst =
      encodeEntries W o (fun n a => kf n (f a)) (fun n a => vf n (f a)) l dst := by
  simp only [encodeEntries, unsortedLoop_map, encodeSorted, sortedLoop_map]

theorem unsortedLoop_congr {α : Type} {kf vf kf' vf' : Nat → α → Bytes → Res} : ∀ (l : List α) (n : Nat) (dst : Bytes),
    (∀ a ∈ l, ∀ n dst, kf n a dst = kf' n a dst) → (∀ a ∈ l, ∀ n dst, vf n a dst = vf' n a dst) →
    unsortedLoop kf vf n l dst = unsortedLoop kf' vf' n l dst
  | [], _, _, _, _ => rfl
  | a :: l, n, dst, hk, hv => by
    simp only [unsortedLoop, hk a (by simp), hv a (by simp)]
    split
    · split
      · exact unsortedLoop_congr l _ _ (fun a ha => hk a (by simp [ha])) (fun a ha => hv a (by simp [ha]))
      · rfl
    · rfl

theorem sortedLoop_congr {α : Type} {kf vf kf' vf' : Nat → α → Bytes → Res} :
    ∀ (l : List α) (n : Nat) (dst : Bytes) (mel : List (Bytes × Bytes)),
    (∀ a ∈ l, ∀ n dst, kf n a dst = kf' n a dst) → (∀ a ∈ l, ∀ n dst, vf n a dst = vf' n a dst) →
    sortedLoop kf vf n l dst mel = sortedLoop kf' vf' n l dst mel
  | [], _, _, _, _, _ => rfl
  | a :: l, n, dst, mel, hk, hv => by
    simp only [sortedLoop, hk a (by simp), hv a (by simp)]
    split
    · split
      · rfl
      · split
        · split
          · rfl
          · exact sortedLoop_congr l _ _ _ (fun a ha => hk a (by simp [ha])) (fun a ha => hv a (by simp [ha]))
        · rfl
    · rfl

theorem encodeEntries_congr {α : Type} (W : World) (o : EncOpts) {kf vf kf' vf' : Nat → α → Bytes → Res} (l : List α)
    (dst : Bytes) (hk : ∀ a ∈ l, ∀ n dst, kf n a dst = kf' n a dst) (hv : ∀ a ∈ l, ∀ n dst, vf n a dst = vf' n a dst) :
    encodeEntries W o kf vf l dst = encodeEntries W o kf' vf' l dst := by
  simp only [encodeEntries, encodeSorted, unsortedLoop_congr l _ _ hk hv, sortedLoop_congr l _ _ _ hk hv]

/-- Entries in memory and entries of the value, visited alike. -/
theorem encodeEntries_rel {α β : Type} (W : World) (o : EncOpts) (path : Path) {kf vf : Nat → α → Bytes → Res}
    {kf' vf' : Nat → β → Bytes → Res} {es : List α} {kvs : List β} (hl : es.length = kvs.length)
    (hk : ∀ (i : Nat) a b, es[i]? = some a → kvs[i]? = some b → ∀ n dst, kf n a dst = kf' n b dst)
    (hv : ∀ (i : Nat) a b, es[i]? = some a → kvs[i]? = some b → ∀ n dst, vf n a dst = vf' n b dst) (dst : Bytes) :
    encodeEntries W o kf vf (W.visit path es) dst = encodeEntries W o kf' vf' (W.visit path kvs) dst := by
  have h1 : es = (es.zip kvs).map Prod.fst := by rw [List.map_fst_zip]; omega
  have h2 : kvs = (es.zip kvs).map Prod.snd := by rw [List.map_snd_zip]; omega
  have hz : ∀ z ∈ W.visit path (es.zip kvs), ∃ i : Nat, es[i]? = some z.1 ∧ kvs[i]? = some z.2 := by
    intro z hz
    obtain ⟨i, hi⟩ := List.getElem?_of_mem (visit_mem hz)
    exact ⟨i, List.getElem?_zip_eq_some.mp hi⟩
  have e1 : W.visit path es = (W.visit path (es.zip kvs)).map Prod.fst := by rw [← visit_map, ← h1]
  have e2 : W.visit path kvs = (W.visit path (es.zip kvs)).map Prod.snd := by rw [← visit_map, ← h2]
  rw [e1, e2, encodeEntries_map, encodeEntries_map]
  apply encodeEntries_congr
  · intro z h n dst
    obtain ⟨i, h1, h2⟩ := hz z h
    exact hk i _ _ h1 h2 n dst
  · intro z h n dst
    obtain ⟨i, h1, h2⟩ := hz z h
    exact hv i _ _ h1 h2 n dst

/-! ## Direct types -/

theorem isInlined_iff {E : Env} {rank : TId → Nat} (hr : ∀ t f, (E t).kind = .struct [f] → rank f.typ < rank t) :
    ∀ (n : Nat) (t : TId), rank t < n → (isInlined E n t = true ↔ Inlined E t)
  | 0, t, h => by omega
  | n + 1, t, h => by
    simp only [isInlined]
    constructor
    · intro hi
      split at hi
      · next hk => exact .ptr hk
      · next hk => exact .map hk
      · next fs hk =>
        split at hi
        · next f =>
          have := hr t f hk
          exact .struct hk ((isInlined_iff hr n f.typ (by omega)).mp hi)
        · simp at hi
      · simp at hi
    · intro hd
      cases hd with
      | ptr hk => simp [hk]
      | map hk => simp [hk]
      | @struct _ f hk hd =>
        have := hr t f hk
        simp [hk, (isInlined_iff hr n f.typ (by omega)).mpr hd]

theorem isInlined_sound {E : Env} : ∀ (n : Nat) (t : TId), isInlined E n t = true → Inlined E t
  | 0, _, h => by simp [isInlined] at h
  | n + 1, t, hi => by
    simp only [isInlined] at hi
    split at hi
    · next hk => exact .ptr hk
    · next hk => exact .map hk
    · next fs hk =>
      split at hi
      · next f => exact .struct hk (isInlined_sound n f.typ hi)
      · simp at hi
    · simp at hi

theorem inlined_direct {E : Env} {t : TId} (h : Inlined E t) : Direct E t := by
  induction h with
  | ptr hk => exact .ptr hk
  | map hk => exact .map hk
  | struct hk _ ih => exact .struct hk ih

theorem blank_direct {E : Env} {t : TId} (h : Blank E t) : Direct E t := by
  induction h with
  | word hk hw => exact .word hk hw
  | struct hk _ _ ih => exact .struct hk ih
  | array hk _ ih => exact .array hk ih

theorem blank_not_inlined {E : Env} {t : TId} (h : Blank E t) : ¬ Inlined E t := by
  induction h with
  | word hk hw => intro h; cases h <;> simp_all
  | @struct t f hk _ _ ih =>
    intro h
    cases h with
    | ptr h | map h => rw [hk] at h; cases h
    | struct h hi => rw [hk] at h; cases h; exact ih hi
  | array hk _ ih => intro h; cases h <;> simp_all

theorem pointed_not_inlined {E : Env} {t : TId} {w : Addr} (h : Pointed E t w) : ¬ Inlined E t := by
  rcases h with ⟨h, -⟩ | h
  · exact fun hi => h (inlined_direct hi)
  · exact blank_not_inlined h

/-- Values with nothing to read are anywhere. -/
theorem blank_repr {E : Env} {pt : TId → TId} (G : GoTypes E pt) {m : Mem} {t : TId} (h : Blank E t) : ∀ {p v}, Repr E m t p v → ∀ q, Repr E m t q v := by
  induction h with
  | word hk hw =>
    intro p v hr q
    cases hr with
    | «opaque» h hb => exact .opaque h hb
    | time hs _ => obtain ⟨_, h, _⟩ := G.time _ hs; simp [hk] at h
    | smap hs => obtain ⟨_, h, _⟩ := G.syncMap _ hs; simp [hk] at h
    | _ => simp_all
  | @struct t f hk hs _ ih =>
    intro p v hr q
    cases hr with
    | struct h hs hb hl hf =>
      refine .struct h hs hb hl fun i g v hg hv => ?_
      have hg' := hg
      rw [hk] at h
      cases h
      have : g = f := by cases i with
        | zero => simpa using hg'.symm
        | succ i => simp at hg'
      subst this
      exact ih (hf i _ v hg hv) _
    | time h _ => rw [hs] at h; cases h
    | smap h => rw [hs] at h; cases h
    | _ => simp_all
  | @array t e hk _ ih =>
    intro p v hr q
    cases hr with
    | array h hb hf =>
      rw [hk] at h
      have he : e = _ := (Kind.array.inj h).2
      subst he
      exact .array (by rw [hk]; exact h) hb fun i v hv => ih (hf i v hv) _
    | time hs _ => obtain ⟨_, h, _⟩ := G.time _ hs; simp [hk] at h
    | smap hs => obtain ⟨_, h, _⟩ := G.syncMap _ hs; simp [hk] at h
    | _ => simp_all

/-- The interface value denotes the value in it. -/
theorem reprE_recv {E : Env} {pt : TId → TId} (G : GoTypes E pt) {m : Mem} {t : TId} {w : Addr} {v : Val} (h : ReprE E m (some (t, w)) (.iface t v)) :
    Recv E m t (.heap w) v := by
  cases h with
  | direct hd hr => exact .direct (inlined_direct hd) hr
  | indirect hd hr =>
    rcases hd with ⟨hd, -⟩ | hb
    · exact .indirect hd hr
    · exact .direct (blank_direct hb) (blank_repr G hb hr _)

theorem direct_kind {E : Env} {t : TId} (h : Direct E t) : (∃ e, (E t).kind = .ptr e) ∨ (∃ k e, (E t).kind = .map k e) ∨ (E t).kind = .other ∨
    (∃ f, (E t).kind = .struct [f]) ∨ ∃ e, (E t).kind = .array 1 e := by
  cases h with
  | ptr h => exact .inl ⟨_, h⟩
  | map h => exact .inr (.inl ⟨_, _, h⟩)
  | word h => exact .inr (.inr (.inl h))
  | struct h => exact .inr (.inr (.inr (.inl ⟨_, h⟩)))
  | array h => exact .inr (.inr (.inr (.inr ⟨_, h⟩)))

/-- A method on a value that can be read is called on the value. -/
theorem repr_bare {E : Env} {m : Mem} {t : TId} {p : Loc} {v : Val} (hp : isPtrK (E t).kind = false) (hs : (E t).special = none) (h : Repr E m t p v) : Bare E t := by
  have no : ((∀ e, (E t).kind ≠ .ptr e) → (∀ k e, (E t).kind ≠ .map k e) → (E t).kind ≠ .other → (∀ f, (E t).kind ≠ .struct [f]) →
      (∀ e, (E t).kind ≠ .array 1 e) → Bare E t) := fun h1 h2 h3 h4 h5 _ hd => by
    rcases direct_kind hd with ⟨_, h⟩ | ⟨_, _, h⟩ | h | ⟨_, h⟩ | ⟨_, h⟩
    · exact h1 _ h
    · exact h2 _ _ h
    · exact h3 h
    · exact h4 _ h
    · exact h5 _ h
  cases h with
  | nilMap _ h | map _ h | array _ h | struct _ _ h | «opaque» _ h => exact h
  | time h | smap h => rw [hs] at h; cases h
  | nilPtr h | ptr h => rw [h] at hp; cases hp
  | bool h | int h | float h | str h | nilSlice h | slice h | eface h | iface h => exact no (by simp [h]) (by simp [h]) (by simp [h]) (by simp [h]) (by simp [h])

/-! ## The refinement -/

variable {W : World} {H : Heap} {M : MethV} {o : EncOpts}

/-- Recursive calls agree on instructions that fit. -/
def Agrees (W : World) (H : Heap) (rec : Rec) (recV : RecV) : Prop :=
  ∀ {t ca i p v}, Typed W.E t ca i → Repr W.E H.mem t p v → (ca = true → isPtrK (W.E t).kind = true ∨ InHeap p) →
    ∀ path dst, rec path i p dst = recV path i v dst

/-- Recursive calls agree on the contents of interfaces. -/
def AgreesE (W : World) (H : Heap) (rec : Rec) (recV : RecV) : Prop :=
  ∀ {t w v i}, ReprE W.E H.mem (some (t, w)) (.iface t v) → instrFor W.E W.tfuel t = some i →
    ∀ path dst, rec path i (.heap w) dst = recV path i v dst

theorem appendJSON_eq {rec : Rec} {recV : RecV} (hE : AgreesE W H rec recV) {x : Eface} {v : Val}
    (h : ReprE W.E H.mem x v) (path : Path) (dst : Bytes) :
    appendJSON W rec path x dst = appendJSONV W recV path v dst := by
  cases h with
  | nil => rfl
  | @direct t w v hd hr =>
    simp only [appendJSON, appendJSONV]
    cases hi : instrFor W.E W.tfuel t with
    | none => rfl
    | some i => exact hE (.direct hd hr) hi _ _
  | @indirect t w v hd hr =>
    simp only [appendJSON, appendJSONV]
    cases hi : instrFor W.E W.tfuel t with
    | none => rfl
    | some i => exact hE (.indirect hd hr) hi _ _

theorem isStringK_iff {k : Kind} : isStringK k = true ↔ k = .string := by
  cases k <;> simp [isStringK]

theorem direct_not_string {E : Env} {t : TId} (hk : (E t).kind = .string) : ¬ Inlined E t := by
  intro h; cases h <;> simp_all

theorem syncMapKey_eq {pt : TId → TId} (G : GoTypes W.E pt) {rec : Rec} {recV : RecV} (hE : AgreesE W H rec recV) {x : Eface} {v : Val}
    (h : ReprE W.E H.mem x v) (path : Path) (dst : Bytes) :
    appendSyncMapKey W H o rec path x dst = appendSyncMapKeyV W o recV path v dst := by
  have key : ∀ t w v, ReprE W.E H.mem (some (t, w)) (.iface t v) →
      appendSyncMapKey W H o rec path (some (t, w)) dst = appendSyncMapKeyV W o recV path (.iface t v) dst := by
    intro t w v h
    simp only [appendSyncMapKey, appendSyncMapKeyV]
    split
    · rfl
    · split
      · next hs =>
        have hk := isStringK_iff.mp hs
        cases h with
        | direct hd _ => exact absurd hd (direct_not_string hk)
        | indirect _ hr =>
          obtain ⟨s, rfl, hat⟩ := repr_str G hk hr
          simp [withRead, readStr, hat]
      · rw [appendJSON_eq hE h]; rfl
  cases h with
  | nil => rfl
  | direct hd hr => exact key _ _ _ (.direct hd hr)
  | indirect hd hr => exact key _ _ _ (.indirect hd hr)

theorem arrayLoop_eq {rec : Rec} {recV : RecV} {path : Path} {ins : Instr} {es : Nat} {p : Loc} :
    ∀ (vs : List Val) (i : Nat) (dst : Bytes),
    (∀ (j : Nat) v, vs[j]? = some v → ∀ path dst, rec path ins (p.add ((i + j) * es)) dst = recV path ins v dst) →
    arrayLoop rec path ins es p i vs.length dst = arrayLoopV recV path ins i vs dst
  | [], i, dst, _ => rfl
  | v :: vs, i, dst, h => by
    simp only [List.length_cons, arrayLoop, arrayLoopV]
    have h0 := h 0 v (by simp)
    simp only [Nat.add_zero] at h0
    rw [h0]
    generalize recV (i :: path) ins v _ = r
    cases r with
    | ok d =>
      apply arrayLoop_eq vs
      intro j x hx
      have := h (j + 1) x (by simpa using hx)
      rwa [show i + 1 + j = i + (j + 1) by omega]
    | _ => rfl

theorem encodeArray_eq {pt : TId → TId} (G : GoTypes W.E pt) {rec : Rec} {recV : RecV} {path : Path} {ins : Instr} {e : TId} {p : Loc} {isba : Bool}
    (hb : isba = true → (W.E e).kind = .int .uint8) {vs : List Val}
    (hvs : ∀ (i : Nat) x, vs[i]? = some x → Repr W.E H.mem e (p.add (i * (W.E e).size)) x)
    (h : ∀ (j : Nat) v, vs[j]? = some v → ∀ path dst, rec path ins (p.add (j * (W.E e).size)) dst = recV path ins v dst)
    (dst : Bytes) :
    encodeArray H o rec path ins (W.E e).size vs.length isba p dst = encodeArrayV o recV path ins isba vs dst := by
  simp only [encodeArray, encodeArrayV]
  split
  · next hc =>
    simp only [Bool.and_eq_true] at hc
    have hk := hb hc.1
    rw [readBytesAt_eq hk G]
    intro i x hx
    have := hvs i x hx
    rwa [G.byteSize _ hk] at this
  · apply arrayLoop_eq
    intro j v hv
    simpa using h j v hv

theorem fieldLoc_eq (R : Ready W H M) {t : TId} {ca : Bool} {l : Loc} {v : Val} (hv : Repr W.E H.mem t l v)
    (ht : IsStruct W.E t) {f : FInstr} {ftyp : TId} (hf : FieldOk W.E t ca f ftyp) (hr : RouteOk W.E W.U t f.fld) :
    (fieldLoc H.mem o f l = none ∧ fieldV o f v = none) ∨ (fieldLoc H.mem o f l = some none ∧ fieldV o f v = some none) ∨
      ∃ l' v', fieldLoc H.mem o f l = some (some l') ∧ fieldV o f v = some (some v') ∧ Repr W.E H.mem ftyp l' v' ∧
        (InHeap l → InHeap l') := by
  obtain ⟨u, i, sf, hp, -⟩ := hr
  have hty := promoted_type ht hp
  have : sf.typ = ftyp := by have := hf.typ; rw [hty] at this; simpa using this
  subst this
  have hw := walk_route R.types hv hp
  simp only [fieldLoc, fieldV]
  split
  · exact .inr (.inl ⟨rfl, rfl⟩)
  · generalize walk H.mem f.fld.embedSeq l = A at hw ⊢
    generalize routeV v f.fld.index = B at hw ⊢
    cases hw with
    | nil => exact .inr (.inl ⟨rfl, rfl⟩)
    | @found l' v' hrep hheap =>
      simp only
      have h1 : (if f.omitNil = true then firstWordNil H.mem l' else some false) = if f.omitNil = true then isNilV v' else some false := by
        split
        · next ho => exact firstWordNil_eq R.types (hf.omitNil ho) hrep
        · rfl
      rw [h1]
      generalize (if f.omitNil = true then isNilV v' else some false) = r
      cases r with
      | none => exact .inl ⟨rfl, rfl⟩
      | some b =>
        cases b with
        | true => exact .inr (.inl ⟨rfl, rfl⟩)
        | false =>
          cases he : f.empty with
          | none => exact .inr (.inr ⟨l', v', rfl, rfl, hrep, hheap⟩)
          | some e =>
            have h2 : e.eval H.mem l' = emptyV e v' := by rw [hf.empty e he]; exact emptyFn_eq R.types hrep
            simp only [h2]
            generalize emptyV e v' = r
            cases r with
            | none => exact .inl ⟨rfl, rfl⟩
            | some b =>
              cases b with
              | true => exact .inr (.inl ⟨rfl, rfl⟩)
              | false => exact .inr (.inr ⟨l', v', rfl, rfl, hrep, hheap⟩)

theorem structLoop_eq (R : Ready W H M) {rec : Rec} {recV : RecV} (hA : Agrees W H rec recV) {t : TId} {ca : Bool} {l : Loc}
    {v : Val} (hv : Repr W.E H.mem t l v) (ht : IsStruct W.E t) (hca : ca = true → InHeap l) {path : Path} :
    ∀ (fs : List FInstr) (i : Nat) (first : Bool) (dst : Bytes),
    (∀ f ∈ fs, (∃ ftyp, FieldOk W.E t ca f ftyp) ∧ RouteOk W.E W.U t f.fld) →
    structLoop H o rec path l i fs first dst = structLoopV o recV path v i fs first dst
  | [], _, _, _, _ => rfl
  | f :: fs, i, first, dst, h => by
    obtain ⟨⟨ftyp, hf⟩, hr⟩ := h f (by simp)
    have ih := fun i first dst => structLoop_eq R hA hv ht hca (path := path) fs i first dst (fun g hg => h g (by simp [hg]))
    simp only [structLoop, structLoopV]
    rcases fieldLoc_eq (o := o) R hv ht hf hr with ⟨h1, h2⟩ | ⟨h1, h2⟩ | ⟨l', v', h1, h2, hrep, hheap⟩
    · simp only [h1, h2]
    · simp only [h1, h2, ih]
    · simp only [h1, h2, ih]
      rw [hA hf.instr hrep (fun hc => .inr (hheap (hca hc)))]
      generalize recV (i :: path) f.instr v' _ = r
      cases r <;> rfl


theorem marshaler_eq (R : Ready W H M) {t : TId} {ca : Bool} {m : MethKind} {hp : Bool} {p : Loc} {v : Val}
    (hty : Typed W.E t ca (.marshaler m t hp)) (hr : Repr W.E H.mem t p v)
    (hca : ca = true → isPtrK (W.E t).kind = true ∨ InHeap p) (path : Path) (dst : Bytes) :
    encodeMarshaler W H o path m t hp p dst = encodeMarshalerV W M o path m t hp v dst := by
  cases hty with
  | marshP hn hm hc hk hs =>
    have hin : InHeap p := by rcases hca hc with h | h; · simp [hk] at h
                              exact h
    obtain ⟨a, ha, rfl⟩ := hin
    have hpk := R.types.ptrTo_kind t
    have hrecv : Recv W.E H.mem (W.ptrTo t) (.heap a) (.ptr v) :=
      .direct (.ptr hpk) (.ptr hpk (by simp [Mem.at]) ha hr)
    have hne : Loc.heap a ≠ .heap 0 := by simpa using ha
    simp only [encodeMarshaler, encodeMarshalerV, invokeMeth, receiver, receiverV, hpk, ifaceK, isPtrK, hne]
    simp only [Bool.not_true, Bool.false_eq_true, if_false, Bool.and_false, withRead, if_true, Bool.false_and, hpk]
    congr 1
    funext ctx d
    exact R.meth _ _ _ _ _ _ _ hrecv
  | marsh hhas hs =>
    have hany := has_any hhas
    simp only [encodeMarshaler, encodeMarshalerV, Bool.not_false, if_true, Bool.true_and, Bool.false_eq_true, if_false]
    cases hkk : (W.E t).kind with
    | ptr e =>
      rcases repr_ptr R.types hkk hr with ⟨rfl, hat⟩ | ⟨a, x, rfl, hat, ha, hx⟩
      · simp [isPtrK, withRead, firstWordNil, hat]
      · have hrecv : Recv W.E H.mem t (.heap a) (.ptr x) := .direct (.ptr hkk) (.ptr hkk (by simp [Mem.at]) ha hx)
        simp only [isPtrK, Bool.true_or, if_true, withRead, firstWordNil, hat, beq_iff_eq, ha, if_false, invokeMeth, receiver,
          receiverV, hkk, ifaceK, readWord, Bool.not_false, Bool.and_self, Option.map_some, Bool.false_eq_true]
        congr 1
        funext ctx d
        exact R.meth _ _ _ _ _ _ _ hrecv
    | iface n =>
      obtain ⟨x, hat, hx⟩ := repr_iface R.types hkk hr
      have hfn : firstWordNil H.mem p = some x.isNone := by
        rcases hat with ⟨_, h⟩ | ⟨_, h⟩ <;> simp [firstWordNil, h]
      have hrd : (if n = 0 then readEface H.mem p else readIface H.mem p) = some x := by
        rcases hat with ⟨h0, h⟩ | ⟨h0, h⟩ <;> simp [readEface, readIface, h, h0]
      simp only [isPtrK, ifaceK, Option.isSome_some, Bool.or_true, if_true, withRead, hfn, invokeMeth, receiver, receiverV, hkk, hrd]
      cases hx with
      | nil => simp
      | @direct t' w v hd hrep =>
        simp
        congr 1
        funext ctx d
        exact R.meth _ _ _ _ _ _ _ (reprE_recv R.types (.direct hd hrep))
      | @indirect t' w v hd hrep =>
        simp
        congr 1
        funext ctx d
        exact R.meth _ _ _ _ _ _ _ (reprE_recv R.types (.indirect hd hrep))
    | _ =>
      have hnd : ¬ Direct W.E t := repr_bare (by rw [hkk]; rfl) hs hr hany
      simp only [isPtrK, ifaceK, Option.isSome_none, Bool.or_self, Bool.false_eq_true, if_false, invokeMeth, receiver, receiverV, hkk,
        Bool.false_and, withRead]
      congr 1
      funext ctx d
      exact R.meth _ _ _ _ _ _ _ (.indirect hnd hr)

theorem special_eq (R : Ready W H M) {rec : Rec} {recV : RecV} (hE : AgreesE W H rec recV) {t : TId} {s : Special} {p : Loc}
    {v : Val} (hs : (W.E t).special = some s) (hr : Repr W.E H.mem t p v) (path : Path) (dst : Bytes) :
    encodeSpecial W H o rec path s p dst = encodeSpecialV W o recV path s v dst := by
  cases s with
  | syncMap =>
    obtain ⟨es, kvs, rfl, hat, hl, hk, hv⟩ := repr_smap R.types hs hr
    simp only [encodeSpecial, encodeSpecialV, encodeSyncMap, readSyncMap, hat, withRead]
    apply encodeEntries_rel W o path hl
    · intro i a b ha hb n dst
      exact syncMapKey_eq R.types hE (hk i a b ha hb) _ _
    · intro i a b ha hb n dst
      exact appendJSON_eq hE (hv i a b ha hb) _ _
  | time =>
    obtain ⟨x, rfl, hat⟩ := repr_time R.types hs hr
    simp [encodeSpecial, encodeSpecialV, readTime, hat, withRead]
  | duration =>
    obtain ⟨x, rfl, hk, hat⟩ := repr_int R.types (R.types.duration _ hs) hr
    cases x <;> simp [IntVal.kind] at hk
    simp [encodeSpecial, encodeSpecialV, readInt, hat, withRead, IntVal.kind]
  | number =>
    obtain ⟨x, rfl, hat⟩ := repr_str R.types (R.types.number _ hs) hr
    simp [encodeSpecial, encodeSpecialV, readStr, hat, withRead]
  | rawMessage =>
    obtain ⟨e, hk, he⟩ := R.types.rawMessage _ hs
    simp only [encodeSpecial, encodeSpecialV, readByteSlice_eq R.types hk he hr]

theorem exec_eq (R : Ready W H M) {rec : Rec} {recV : RecV} (hA : Agrees W H rec recV) (hE : AgreesE W H rec recV)
    {t : TId} {ca : Bool} {i : Instr} {p : Loc} {v : Val} (hty : Typed W.E t ca i) (hr : Repr W.E H.mem t p v)
    (hca : ca = true → isPtrK (W.E t).kind = true ∨ InHeap p) (path : Path) (dst : Bytes) :
    exec W H o rec path i p dst = execV W M o recV path i v dst := by
  cases hty with
  | goType hs => exact special_eq R hE hs hr path dst
  | marsh h hs => exact marshaler_eq R (.marsh h hs) hr hca path dst
  | marshP hn hm h hk hs => exact marshaler_eq R (.marshP hn hm h hk hs) hr hca path dst
  | bool hk => obtain ⟨b, rfl, hat⟩ := repr_bool R.types hk hr; simp [exec, execV, readBool, hat, withRead]
  | int hk =>
    obtain ⟨b, rfl, hkk, hat⟩ := repr_int R.types hk hr
    simp [exec, execV, readInt, hat, withRead, hkk]
  | float hk => obtain ⟨b, rfl, hat⟩ := repr_float R.types hk hr; simp [exec, execV, readFloat, hat, withRead]
  | string hk => obtain ⟨b, rfl, hat⟩ := repr_str R.types hk hr; simp [exec, execV, readStr, hat, withRead]
  | quotedString hk => obtain ⟨b, rfl, hat⟩ := repr_str R.types hk hr; simp [exec, execV, readStr, hat, withRead]
  | @quoted _ _ j hi =>
    simp only [exec, execV, hA hi hr hca]
    generalize recV path j v _ = r
    cases r <;> rfl
  | nilText hp hi =>
    cases hkk : (W.E t).kind with
    | ptr e =>
      have := hA hi hr hca path dst
      rcases repr_ptr R.types hkk hr with ⟨rfl, hat⟩ | ⟨a, x, rfl, hat, ha, hx⟩
      · simp [exec, execV, readWord, hat, withRead]
      · simp [exec, execV, readWord, hat, withRead, ha, this]
    | _ => simp [hkk, isPtrK] at hp
  | @iface _ _ n hk hany =>
    obtain ⟨x, hat, -, hx⟩ := repr_eface R.types hk hany hr
    simp only [exec, execV, hat, withRead]
    have hj := appendJSON_eq hE hx path dst
    cases hx with
    | nil => rfl
    | direct hd hrep => simpa using hj
    | indirect hd hrep => simpa using hj
  | struct hk hs =>
    have hst : IsStruct W.E t := by
      revert hk
      cases hkk : (W.E t).kind <;> simp [isStructK]
      exact ⟨_, hkk⟩
    simp only [exec, execV]
    split
    · rfl
    · cases hfl : structFieldsInstr W.E W.U W.grow W.sort W.tfuel t ca with
      | none => rfl
      | some fl =>
        obtain ⟨l, hl, _, hok⟩ := structFieldsInstr_ok hfl
        have hroute := structFields_route R.tab (R.apart t) R.sort hl
        apply structLoop_eq R hA hr hst
        · intro hc
          rcases hca hc with h | h
          · obtain ⟨fs, hfs⟩ := hst
            simp only [HasFields] at hfs
            simp [hfs, isPtrK] at h
          · exact h
        · intro f hf
          exact ⟨(hok f hf).2, hroute _ (hok f hf).1⟩
  | map hk hkm hki hvi =>
    rcases repr_map R.types hk hr with ⟨rfl, hat⟩ | ⟨a, es, kvs, rfl, hat, ha, hat2, hl, hks, hvs⟩
    · simp [exec, execV, encodeMap, readWord, hat, withRead]
    · simp only [exec, execV, encodeMap, readWord, hat, withRead, ha, if_false, readMap, hat2, hl]
      split
      · rfl
      · apply encodeEntries_rel W o path hl
        · intro i x kv hx hkv n dst
          exact hA hki (hks i x kv hx hkv) (by simp) _ _
        · intro i x kv hx hkv n dst
          exact hA hvi (hvs i x kv hx hkv) (by simp) _ _
  | byteSlice hk he => simp only [exec, execV, readByteSlice_eq R.types hk he hr]
  | slice hk hi =>
    rcases repr_slice R.types hk hr with ⟨rfl, hat⟩ | ⟨d, vs, rfl, hat, hd, hvs⟩
    · simp [exec, execV, readSlice, hat, withRead]
    · simp only [exec, execV, readSlice, hat, withRead, hd, if_false]
      split
      · rfl
      · apply encodeArray_eq R.types (by simp)
        · intro i x hx
          simpa [Loc.add] using hvs i x hx
        · intro j x hx path dst
          have := hvs j x hx
          exact hA hi (p := (Loc.heap d).add _) (by simpa [Loc.add] using this)
            (fun _ => .inr (inHeap_add ⟨d, hd, rfl⟩ _)) path dst
  | array hk hb hi =>
    obtain ⟨vs, rfl, rfl, hvs⟩ := repr_array R.types hk hr
    simp only [exec, execV]
    apply encodeArray_eq R.types hb hvs
    intro j x hx path dst
    refine hA hi (hvs j x hx) (fun hc => .inr (inHeap_add ?_ _)) path dst
    rcases hca hc with h | h
    · simp [hk, isPtrK] at h
    · exact h
  | ptr hk hi =>
    rcases repr_ptr R.types hk hr with ⟨rfl, hat⟩ | ⟨a, x, rfl, hat, ha, hx⟩
    · simp [exec, execV, readWord, hat, withRead]
    · simp only [exec, execV, readWord, hat, withRead, ne_eq, ha, not_false_iff, if_true]
      exact hA hi hx (fun _ => .inr ⟨a, ha, rfl⟩) path dst
  | unsupported => rfl

/-- The instruction of a type, without the wrapper for direct types. -/
theorem instrFor_cases {E : Env} {n : Nat} {t : TId} {i : Instr} (h : instrFor E n t = some i) :
    ∃ j, Typed E t (isPtrK (E t).kind) j ∧ i = if isInlined E n t then .inline j else j := by
  unfold instrFor at h
  split at h
  · simp at h
  · next j hj => exact ⟨j, newInstruction_typed _ hj, by simpa using h.symm⟩

theorem run_agrees (R : Ready W H M) : ∀ n, Agrees W H (run W H o n) (runV W M o n) ∧ AgreesE W H (run W H o n) (runV W M o n)
  | 0 => ⟨fun _ _ _ _ _ => rfl, fun _ _ _ _ => rfl⟩
  | n + 1 => by
    obtain ⟨hA, hE⟩ := run_agrees R n
    have hA' : Agrees W H (run W H o (n + 1)) (runV W M o (n + 1)) := fun hty hr hca path dst =>
      exec_eq R hA hE hty hr hca path dst
    refine ⟨hA', ?_⟩
    intro t w v i hx hi path dst
    obtain ⟨rank, hrank, hlt⟩ := R.nest
    have hdir := isInlined_iff hrank W.tfuel t (hlt t)
    obtain ⟨j, hj, rfl⟩ := instrFor_cases hi
    cases hx with
    | direct hd hr =>
      rw [if_pos (hdir.mpr hd)]
      simp only [run, runV, exec, execV]
      refine hA hj hr (fun h => .inl h) path dst
    | indirect hd hr =>
      rw [if_neg (fun h => pointed_not_inlined hd (hdir.mp h))]
      exact hA' hj hr (fun h => .inl h) path dst

end Jettison.Proofs
