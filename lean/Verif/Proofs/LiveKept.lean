import Verif.Proofs.LiveReads
import Verif.Proofs.NoBad
import Verif.Spec.Maps

/-! # Memory that changes elsewhere -/

namespace Jettison.Proofs
open Jettison Jettison.Model Jettison.Spec

variable {σ : Type} {W : World} {H : Heap} {M : MethV} {P : Around σ} {o : EncOpts} {lim : Nat}

/-- The result does not depend on the state. -/
def SameAs (c : Act σ) (r : Res) : Prop := ∀ s, (c s).1 = r

theorem same_ret {r : Res} : SameAs (σ := σ) (.ret r) r := fun _ => rfl

theorem same_andThen {c : Act σ} {f : Bytes → Act σ} {g : Bytes → Res} {r : Res} (h : SameAs c r) (hf : ∀ b, SameAs (f b) (g b)) :
    SameAs (c.andThen f) (match (motive := Res → Res) r with | .ok b => g b | r => r) := by
  intro s
  have h1 := h s
  unfold Act.andThen
  cases hc : c s with
  | mk r1 s1 =>
    rw [hc] at h1
    simp only at h1
    subst h1
    cases r1 with
    | ok b => exact hf b s1
    | _ => rfl

theorem same_read {α : Type} {x : σ → Option α} {y : Option α} {f : α → Act σ} {g : α → Res} {a : α} (hy : y = some a) (hx : ∀ s, x s = some a)
    (h : SameAs (f a) (g a)) : SameAs (withReadL x f) (withRead y g) := by
  intro s
  subst hy
  simp only [withReadL, hx, withRead]
  exact h s

/-! ## Reads -/

/-- What is in memory stays there. -/
def Extends (m m' : Mem) : Prop := ∀ a c, m a = some c → m' a = some c

theorem within_at {m m' : Mem} (h : Extends m m') {p : Loc} {c : Cell} (hc : m.at p = some c) : m'.at p = some c := by
  cases p with
  | heap a =>
    simp only [Mem.at] at hc ⊢
    split at hc
    · simp at hc
    · next h0 => rw [if_neg h0]; exact h _ _ hc
  | tmp w => exact hc

theorem within_word {m m' : Mem} (h : Extends m m') {p : Loc} {a : Addr} (hc : readWord m p = some a) : readWord m' p = some a := by
  unfold readWord at hc ⊢
  split at hc
  · next c e => rw [within_at h e]; exact hc
  · simp at hc

theorem within_nil {m m' : Mem} (h : Extends m m') {p : Loc} {a : Bool} (hc : firstWordNil m p = some a) : firstWordNil m' p = some a := by
  unfold firstWordNil at hc ⊢
  split at hc <;> first | (next c e => rw [within_at h e]; exact hc) | (next c d e => rw [within_at h e]; exact hc) | simp at hc

theorem within_eface {m m' : Mem} (h : Extends m m') {p : Loc} {x : Eface} (hc : readEface m p = some x) : readEface m' p = some x := by
  unfold readEface at hc ⊢
  split at hc <;> first | (next c e => rw [within_at h e]; exact hc) | (next e => rw [within_at h e]; exact hc) | simp at hc

theorem within_bytes {m m' : Mem} (h : Extends m m') : ∀ {n : Nat} {p : Loc} {b : Bytes}, readBytesAt m n p = some b → readBytesAt m' n p = some b
  | 0, _, _, hc => hc
  | n + 1, p, b, hc => by
    simp only [readBytesAt] at hc ⊢
    split at hc
    · next v e =>
      rw [within_at h e]
      simp only [Option.map_eq_some_iff] at hc ⊢
      obtain ⟨b', hb', rfl⟩ := hc
      exact ⟨b', within_bytes h hb', rfl⟩
    · simp at hc

theorem within_slice {m m' : Mem} (h : Extends m m') {p : Loc} {a : Addr × Nat} (hc : readSlice m p = some a) : readSlice m' p = some a := by
  unfold readSlice at hc ⊢
  split at hc
  · next c d e => rw [within_at h e]; exact hc
  · simp at hc

theorem within_byteSlice {m m' : Mem} (h : Extends m m') {p : Loc} {b : Option Bytes} (hc : readByteSlice m p = some b) : readByteSlice m' p = some b := by
  unfold readByteSlice at hc ⊢
  split at hc
  · next d n e =>
    rw [within_slice h e]
    simp only
    split at hc
    · next h0 => rw [if_pos h0]; exact hc
    · next h0 =>
      rw [if_neg h0]
      simp only [Option.map_eq_some_iff] at hc ⊢
      obtain ⟨b', hb', rfl⟩ := hc
      exact ⟨b', within_bytes h hb', rfl⟩
  · simp at hc

theorem within_eval {m m' : Mem} (h : Extends m m') {f : EmptyFn} {p : Loc} {b : Bool} (hc : f.eval m p = some b) : f.eval m' p = some b := by
  cases f with
  | bool =>
    simp only [EmptyFn.eval, Option.map_eq_some_iff] at hc ⊢
    obtain ⟨x, hx, rfl⟩ := hc
    refine ⟨x, ?_, rfl⟩
    unfold readBool at hx ⊢
    split at hx
    · next e => rw [within_at h e]; exact hx
    · simp at hx
  | string =>
    simp only [EmptyFn.eval, Option.map_eq_some_iff] at hc ⊢
    obtain ⟨x, hx, rfl⟩ := hc
    refine ⟨x, ?_, rfl⟩
    unfold readStr at hx ⊢
    split at hx
    · next e => rw [within_at h e]; exact hx
    · simp at hx
  | int k =>
    simp only [EmptyFn.eval, Option.map_eq_some_iff] at hc ⊢
    obtain ⟨x, hx, rfl⟩ := hc
    refine ⟨x, ?_, rfl⟩
    unfold readInt at hx ⊢
    split at hx
    · next e => rw [within_at h e]; exact hx
    · simp at hx
  | float w =>
    simp only [EmptyFn.eval, Option.map_eq_some_iff] at hc ⊢
    obtain ⟨x, hx, rfl⟩ := hc
    refine ⟨x, ?_, rfl⟩
    unfold readFloat at hx ⊢
    split at hx
    · next e => rw [within_at h e]; exact hx
    · simp at hx
  | map =>
    simp only [EmptyFn.eval] at hc ⊢
    split at hc
    · next a e =>
      rw [within_word h e]
      simp only [Option.map_eq_some_iff] at hc ⊢
      obtain ⟨x, hx, rfl⟩ := hc
      refine ⟨x, ?_, rfl⟩
      unfold mapLen at hx ⊢
      split at hx
      · next h0 => rw [if_pos h0]; exact hx
      · next h0 =>
        rw [if_neg h0]
        simp only [Option.map_eq_some_iff] at hx ⊢
        obtain ⟨y, hy, rfl⟩ := hx
        refine ⟨y, ?_, rfl⟩
        unfold readMap at hy ⊢
        split at hy
        · next e => rw [within_at h e]; exact hy
        · simp at hy
    · simp at hc
  | ptr =>
    simp only [EmptyFn.eval, Option.map_eq_some_iff] at hc ⊢
    obtain ⟨x, hx, rfl⟩ := hc
    exact ⟨x, within_word h hx, rfl⟩
  | iface => exact within_nil h hc
  | slice =>
    simp only [EmptyFn.eval, Option.map_eq_some_iff] at hc ⊢
    obtain ⟨x, hx, rfl⟩ := hc
    exact ⟨x, within_slice h hx, rfl⟩
  | always => exact hc
  | never => exact hc

theorem within_walk {m m' : Mem} (h : Extends m m') : ∀ {ss : List Seq} {p : Loc} {r : Option Loc}, walk m ss p = some r → walk m' ss p = some r
  | [], _, _, hc => hc
  | q :: ss, p, r, hc => by
    simp only [walk] at hc ⊢
    split at hc
    · next hi =>
      rw [if_pos hi]
      split at hc
      · simp at hc
      · next a e =>
        rw [within_word h e]
        simp only
        split at hc
        · next h0 => rw [if_pos h0]; exact hc
        · next h0 => rw [if_neg h0]; exact within_walk h hc
    · next hi => rw [if_neg hi]; exact within_walk h hc

theorem within_field {m m' : Mem} (h : Extends m m') {f : FInstr} {p : Loc} {r : Option Loc} (hc : fieldLoc m o f p = some r) :
    fieldLoc m' o f p = some r := by
  unfold fieldLoc at hc ⊢
  split at hc
  · next hd => rw [if_pos hd]; exact hc
  · next hd =>
    rw [if_neg hd]
    cases hw : walk m f.fld.embedSeq p with
    | none => simp [hw] at hc
    | some x =>
      rw [hw] at hc
      rw [within_walk h hw]
      cases x with
      | none => exact hc
      | some fp =>
        simp only at hc ⊢
        cases hn : (if f.omitNil = true then firstWordNil m fp else some false) with
        | none => simp [hn] at hc
        | some b =>
          have : (if f.omitNil = true then firstWordNil m' fp else some false) = some b := by
            split at hn
            · next hf => rw [if_pos hf]; exact within_nil h hn
            · next hf => rw [if_neg hf]; exact hn
          rw [hn] at hc
          rw [this]
          cases b with
          | true => exact hc
          | false =>
            simp only at hc ⊢
            cases he : f.empty with
            | none => rw [he] at hc; exact hc
            | some e =>
              simp only [he] at hc ⊢
              cases hv : e.eval m fp with
              | none => simp [hv] at hc
              | some b => rw [hv] at hc; rw [within_eval h hv]; exact hc

/-! ## Loops -/

theorem same_unsorted {α : Type} {next : σ → Nat → Option α} {kfL vfL : Nat → α → Bytes → Act σ} {kf vf : Nat → α → Bytes → Res} :
    ∀ (l : List α) (lim n : Nat) (dst : Bytes), l.length < lim → (∀ s j, next s (n + j) = l[j]?) →
    (∀ a ∈ l, ∀ n dst, SameAs (kfL n a dst) (kf n a dst)) → (∀ a ∈ l, ∀ n dst, SameAs (vfL n a dst) (vf n a dst)) →
    SameAs (unsortedLoopL next kfL vfL lim n dst) (unsortedLoop kf vf n l dst)
  | l, 0, _, _, hl, _, _, _ => by omega
  | [], lim + 1, n, dst, _, hn, _, _ => by
    intro s
    have := hn s 0
    simp only [Nat.add_zero, List.getElem?_nil] at this
    simp [unsortedLoopL, unsortedLoop, this]
  | a :: l, lim + 1, n, dst, hl, hn, hk, hv => by
    intro s
    have h0 := hn s 0
    simp only [Nat.add_zero, List.getElem?_cons_zero] at h0
    simp only [unsortedLoopL, unsortedLoop, h0]
    exact same_andThen (hk a (by simp) n _) (fun b => same_andThen (hv a (by simp) n _) fun b' =>
      same_unsorted l lim (n + 1) b' (by simp only [List.length_cons] at hl; omega)
        (fun s j => by have := hn s (j + 1); rw [show n + 1 + j = n + (j + 1) by omega]; simpa using this)
        (fun a ha => hk a (by simp [ha])) (fun a ha => hv a (by simp [ha]))) s

theorem same_sorted {α : Type} {next : σ → Nat → Option α} {kfL vfL : Nat → α → Bytes → Act σ} {kf vf : Nat → α → Bytes → Res} :
    ∀ (l : List α) (lim n : Nat) (buf : Bytes) (mel : List (Bytes × Bytes)), l.length < lim → (∀ s j, next s (n + j) = l[j]?) →
    (∀ a ∈ l, ∀ n dst, SameAs (kfL n a dst) (kf n a dst)) → (∀ a ∈ l, ∀ n dst, SameAs (vfL n a dst) (vf n a dst)) →
    ∀ s, (sortedLoopL next kfL vfL lim n buf mel s).1 = sortedLoop kf vf n l buf mel
  | l, 0, _, _, _, hl, _, _, _ => by omega
  | [], lim + 1, n, buf, mel, _, hn, _, _ => by
    intro s
    have := hn s 0
    simp only [Nat.add_zero, List.getElem?_nil] at this
    simp [sortedLoopL, sortedLoop, this]
  | a :: l, lim + 1, n, buf, mel, hl, hn, hk, hv => by
    intro s
    have h0 := hn s 0
    simp only [Nat.add_zero, List.getElem?_cons_zero] at h0
    simp only [sortedLoopL, sortedLoop, h0]
    have h1 := hk a (by simp) n buf s
    rw [← h1]
    cases hc : kfL n a buf s with
    | mk r s1 =>
      cases r with
      | ok buf1 =>
        simp only
        split
        · rfl
        · have h2 := hv a (by simp) n (buf1 ++ b! ":") s1
          rw [← h2]
          cases hc' : vfL n a (buf1 ++ b! ":") s1 with
          | mk r s2 =>
            cases r with
            | ok buf2 =>
              simp only
              split
              · rfl
              · exact same_sorted l lim (n + 1) buf2 _ (by simp only [List.length_cons] at hl; omega)
                  (fun s j => by have := hn s (j + 1); rw [show n + 1 + j = n + (j + 1) by omega]; simpa using this)
                  (fun a ha => hk a (by simp [ha])) (fun a ha => hv a (by simp [ha])) s2
            | _ => rfl
      | _ => rfl

theorem same_entries {α : Type} {next : σ → Nat → Option α} {kfL vfL : Nat → α → Bytes → Act σ} {kf vf : Nat → α → Bytes → Res}
    (l : List α) (dst : Bytes) (hl : l.length < lim) (hn : ∀ s j, next s j = l[j]?)
    (hk : ∀ a ∈ l, ∀ n dst, SameAs (kfL n a dst) (kf n a dst)) (hv : ∀ a ∈ l, ∀ n dst, SameAs (vfL n a dst) (vf n a dst)) :
    SameAs (encodeEntriesL W o lim next kfL vfL dst) (encodeEntries W o kf vf l dst) := by
  unfold encodeEntriesL encodeEntries
  refine same_andThen ?_ fun b => same_ret
  split
  · exact same_unsorted l lim 0 _ hl (by simpa using hn) hk hv
  · intro s
    have h := same_sorted l lim 0 [] [] hl (by simpa using hn) hk hv s
    unfold encodeSortedL encodeSorted
    rw [← h]
    cases sortedLoopL next kfL vfL lim 0 [] [] s with
    | mk r s1 =>
      cases r with
      | ok mel => rfl
      | stop r => cases r <;> rfl

theorem visit_length {α : Type} (hw : OrderOk W.order) (path : Path) (l : List α) : (W.visit path l).length ≤ l.length := by
  unfold World.visit
  refine Nat.le_trans (List.length_filterMap_le _ _) ?_
  rw [(hw path l.length).length_eq, List.length_range]
  exact Nat.le_refl _

/-! ## Instructions -/

def SameRecL (W : World) (H : Heap) (recL : RecL σ) (rec : Rec) : Prop :=
  ∀ {t ca i p v}, Typed W.E t ca i → Repr W.E H.mem t p v → (ca = true → isPtrK (W.E t).kind = true ∨ InHeap p) →
    ∀ path dst, SameAs (recL path i p dst) (rec path i p dst)

def SameRecEL (W : World) (H : Heap) (recL : RecL σ) (rec : Rec) : Prop :=
  ∀ {t w v i}, ReprE W.E H.mem (some (t, w)) (.iface t v) → instrFor W.E W.tfuel t = some i →
    ∀ path dst, SameAs (recL path i (.heap w) dst) (rec path i (.heap w) dst)

theorem same_appendJSON {recL : RecL σ} {rec : Rec} (hE : SameRecEL W H recL rec) {x : Eface} {v : Val} (h : ReprE W.E H.mem x v) (path : Path) (dst : Bytes) :
    SameAs (appendJSONL W recL path x dst) (appendJSON W rec path x dst) := by
  have key : ∀ t w v, ReprE W.E H.mem (some (t, w)) (.iface t v) →
      SameAs (appendJSONL W recL path (some (t, w)) dst) (appendJSON W rec path (some (t, w)) dst) := by
    intro t w v h
    simp only [appendJSON, appendJSONL]
    cases hi : instrFor W.E W.tfuel t with
    | none => exact same_ret
    | some i => exact hE h hi _ _
  cases h with
  | nil => exact same_ret
  | direct hd hr => exact key _ _ _ (.direct hd hr)
  | indirect hd hr => exact key _ _ _ (.indirect hd hr)

theorem same_syncKey (R : Ready W H M) (K : Kept W H M P) {recL : RecL σ} {rec : Rec} (hE : SameRecEL W H recL rec) {x : Eface} {v : Val}
    (h : ReprE W.E H.mem x v) (path : Path) (dst : Bytes) :
    SameAs (appendSyncMapKeyL W P o recL path x dst) (appendSyncMapKey W H o rec path x dst) := by
  have key : ∀ t w v, ReprE W.E H.mem (some (t, w)) (.iface t v) →
      SameAs (appendSyncMapKeyL W P o recL path (some (t, w)) dst) (appendSyncMapKey W H o rec path (some (t, w)) dst) := by
    intro t w v h
    simp only [appendSyncMapKey, appendSyncMapKeyL]
    split
    · exact same_ret
    · split
      · next hs =>
        have hk := isStringK_iff.mp hs
        cases h with
        | direct hd _ => exact absurd hd (direct_not_string hk)
        | indirect _ hr =>
          obtain ⟨x, rfl, hat⟩ := repr_str R.types hk hr
          exact same_read (a := x) (by simp [readStr, hat]) (fun s => by simp [readStr, within_at (K.mem s) hat]) same_ret
      · exact same_andThen (same_appendJSON hE h _ _) fun b => same_ret
  cases h with
  | nil => exact same_ret
  | direct hd hr => exact key _ _ _ (.direct hd hr)
  | indirect hd hr => exact key _ _ _ (.indirect hd hr)

theorem same_arrayLoop {recL : RecL σ} {rec : Rec} {path : Path} {ins : Instr} {es : Nat} {p : Loc} :
    ∀ (n i : Nat) (dst : Bytes), (∀ j, j < n → ∀ path dst, SameAs (recL path ins (p.add ((i + j) * es)) dst) (rec path ins (p.add ((i + j) * es)) dst)) →
    SameAs (arrayLoopL recL path ins es p i n dst) (arrayLoop rec path ins es p i n dst)
  | 0, i, dst, _ => same_ret
  | n + 1, i, dst, h => by
    simp only [arrayLoopL, arrayLoop]
    refine same_andThen ?_ fun b => ?_
    · have := h 0 (by omega); simp only [Nat.add_zero] at this; exact this _ _
    · refine same_arrayLoop n (i + 1) b fun j hj => ?_
      have := h (j + 1) (by omega)
      rwa [show i + 1 + j = i + (j + 1) by omega]

theorem same_array (R : Ready W H M) (K : Kept W H M P) {recL : RecL σ} {rec : Rec} {path : Path} {ins : Instr} {e : TId} {p : Loc} {isba : Bool}
    (hb : isba = true → (W.E e).kind = .int .uint8) {vs : List Val}
    (hvs : ∀ (i : Nat) x, vs[i]? = some x → Repr W.E H.mem e (p.add (i * (W.E e).size)) x)
    (h : ∀ (j : Nat), j < vs.length → ∀ path dst, SameAs (recL path ins (p.add (j * (W.E e).size)) dst) (rec path ins (p.add (j * (W.E e).size)) dst))
    (dst : Bytes) :
    SameAs (encodeArrayL P o recL path ins (W.E e).size vs.length isba p dst) (encodeArray H o rec path ins (W.E e).size vs.length isba p dst) := by
  simp only [encodeArray, encodeArrayL]
  split
  · next hc =>
    simp only [Bool.and_eq_true] at hc
    have hk := hb hc.1
    have h1 := readBytesAt_eq (m := H.mem) hk R.types vs p (by
      intro i x hx
      have := hvs i x hx
      rwa [R.types.byteSize _ hk] at this)
    obtain ⟨b, hb⟩ := bytesOf_some (m := H.mem) R.types hk (vs := vs) (fun x hx => by
      obtain ⟨i, hi⟩ := List.getElem?_of_mem hx
      exact ⟨_, hvs i x hi⟩)
    rw [hb] at h1
    exact same_read h1 (fun s => within_bytes (K.mem s) h1) same_ret
  · apply same_arrayLoop
    intro j hj
    simpa using h j hj

theorem same_structLoop (R : Ready W H M) (K : Kept W H M P) {recL : RecL σ} {rec : Rec} (hA : SameRecL W H recL rec) {t : TId} {ca : Bool} {l : Loc}
    {v : Val} (hv : Repr W.E H.mem t l v) (ht : IsStruct W.E t) (hca : ca = true → InHeap l) {path : Path} :
    ∀ (fs : List FInstr) (i : Nat) (first : Bool) (dst : Bytes),
    (∀ f ∈ fs, (∃ ftyp, FieldOk W.E t ca f ftyp) ∧ RouteOk W.E W.U t f.fld) →
    SameAs (structLoopL P o recL path l i fs first dst) (structLoop H o rec path l i fs first dst)
  | [], _, _, _, _ => same_ret
  | f :: fs, i, first, dst, h => by
    obtain ⟨⟨ftyp, hf⟩, hr⟩ := h f (by simp)
    have ih := fun i first dst => same_structLoop R K hA hv ht hca (path := path) fs i first dst (fun g hg => h g (by simp [hg]))
    have step : ∀ r, fieldLoc H.mem o f l = some r → ∀ s, fieldLoc (P.mem s) o f l = some r := fun r hr s => within_field (K.mem s) hr
    intro s
    simp only [structLoopL, structLoop]
    rcases fieldLoc_eq (o := o) R hv ht hf hr with ⟨h1, h2⟩ | ⟨h1, h2⟩ | ⟨l', v', h1, h2, hrep, hheap⟩
    · exact absurd h2 (fieldV_some R hv ht hf hr)
    · simp only [h1, withReadL, step _ h1]; exact ih _ _ _ s
    · simp only [h1, withReadL, step _ h1]
      refine same_andThen (g := fun dst' => if f.omitNullMarshaler && endsNull dst' then
          structLoop H o rec path l (i + 1) fs false (dst'.take (if first then dst.length + 1 else dst.length))
        else structLoop H o rec path l (i + 1) fs false dst') (hA hf.instr hrep (fun hc => .inr (hheap (hca hc))) _ _) (fun b => ?_) s
      split
      · exact ih _ _ _
      · exact ih _ _ _

theorem same_callMeth (R : Ready W H M) (K : Kept W H M P) {k : MethKind} {t rt : TId} {w : Loc} {v : Val} (h : Recv W.E H.mem rt w v) (path : Path) (dst : Bytes) :
    SameAs (callMethL W P o k t rt w dst) (callMeth W o k t (H.meth path k · rt w ·) dst) := by
  intro s
  have : ∀ k ctx d, (P.meth s k ctx rt w d).1 = H.meth path k ctx rt w d := fun k ctx d => by
    rw [K.meth s path k ctx rt w v d h, R.meth path k ctx rt w v d h]
  cases k <;> simp only [callMethL, callMeth, this]

theorem same_marshaler (R : Ready W H M) (K : Kept W H M P) {t : TId} {ca : Bool} {m : MethKind} {hp : Bool} {p : Loc} {v : Val}
    (hty : Typed W.E t ca (.marshaler m t hp)) (hr : Repr W.E H.mem t p v)
    (hca : ca = true → isPtrK (W.E t).kind = true ∨ InHeap p) (path : Path) (dst : Bytes) :
    SameAs (encodeMarshalerL W P o m t hp p dst) (encodeMarshaler W H o path m t hp p dst) := by
  cases hty with
  | marshP hn hm hc hk hs =>
    have hin : InHeap p := by rcases hca hc with h | h; · simp [hk] at h
                              exact h
    obtain ⟨a, ha, rfl⟩ := hin
    have hpk := R.types.ptrTo_kind t
    have hrecv : Recv W.E H.mem (W.ptrTo t) (.heap a) (.ptr v) :=
      .direct (.ptr hpk) (.ptr hpk (by simp [Mem.at]) ha hr)
    have hne : Loc.heap a ≠ .heap 0 := by simpa using ha
    simp only [encodeMarshaler, encodeMarshalerL, invokeMeth, invokeMethL, hne, Bool.not_true, Bool.false_eq_true, if_false]
    refine same_read (a := some (W.ptrTo t, .heap a)) ?_ (fun s => ?_) ?_
    · simp [receiver, hpk, ifaceK]
    · simp [receiver, hpk, ifaceK]
    · exact same_callMeth R K hrecv path dst
  | marsh hhas hs =>
    have hany := has_any hhas
    simp only [encodeMarshaler, encodeMarshalerL, Bool.not_false, if_true]
    cases hkk : (W.E t).kind with
    | ptr e =>
      simp only [isPtrK, Bool.true_or, if_true]
      rcases repr_ptr R.types hkk hr with ⟨rfl, hat⟩ | ⟨a, x, rfl, hat, ha, hx⟩
      · refine same_read (a := true) (by simp [firstWordNil, hat]) (fun s => by simp [firstWordNil, within_at (K.mem s) hat]) ?_
        exact same_ret
      · have hrecv : Recv W.E H.mem t (.heap a) (.ptr x) := .direct (.ptr hkk) (.ptr hkk (by simp [Mem.at]) ha hx)
        refine same_read (a := false) (by simp [firstWordNil, hat, ha]) (fun s => by simp [firstWordNil, within_at (K.mem s) hat, ha]) ?_
        simp only [Bool.false_eq_true, if_false, invokeMeth, invokeMethL]
        refine same_read (a := some (t, .heap a)) (by simp [receiver, hkk, ifaceK, isPtrK, readWord, hat])
          (fun s => by simp [receiver, hkk, ifaceK, isPtrK, readWord, within_at (K.mem s) hat]) ?_
        exact same_callMeth R K hrecv path dst
    | iface n =>
      obtain ⟨x, hat, hx⟩ := repr_iface R.types hkk hr
      have hfn : ∀ m', Extends H.mem m' → firstWordNil m' p = some x.isNone := by
        intro m' hm
        rcases hat with ⟨_, h⟩ | ⟨_, h⟩ <;> simp [firstWordNil, within_at hm h]
      have hrd : ∀ m', Extends H.mem m' → (if n = 0 then readEface m' p else readIface m' p) = some x := by
        intro m' hm
        rcases hat with ⟨h0, h⟩ | ⟨h0, h⟩ <;> simp [readEface, readIface, within_at hm h, h0]
      have hself : Extends H.mem H.mem := fun _ _ h => h
      simp only [isPtrK, ifaceK, Option.isSome_some, Bool.or_true, if_true]
      refine same_read (hfn _ hself) (fun s => hfn _ (K.mem s)) ?_
      have key : ∀ d w v, Recv W.E H.mem d (.heap w) v → x = some (d, w) →
          SameAs (invokeMethL W P o m t false p dst) (invokeMeth W H o path m t false p dst) := by
        intro d w v hrecv hxx
        simp only [invokeMeth, invokeMethL]
        refine same_read (a := some (d, .heap w)) (by simp [receiver, hkk, ifaceK, hrd _ hself, hxx])
          (fun s => by simp [receiver, hkk, ifaceK, hrd _ (K.mem s), hxx]) ?_
        exact same_callMeth R K hrecv path dst
      cases hx with
      | nil => exact same_ret
      | direct hd hrep => exact key _ _ _ (reprE_recv R.types (.direct hd hrep)) rfl
      | indirect hd hrep => exact key _ _ _ (reprE_recv R.types (.indirect hd hrep)) rfl
    | _ =>
      have hnd : ¬ Direct W.E t := repr_bare (by simp [hkk, isPtrK]) hs hr hany
      simp only [isPtrK, ifaceK, Option.isSome_none, Bool.or_self, Bool.false_eq_true, if_false, invokeMeth, invokeMethL]
      refine same_read (a := some (t, p)) (by simp [receiver, hkk, ifaceK, isPtrK]) (fun s => by simp [receiver, hkk, ifaceK, isPtrK]) ?_
      exact same_callMeth R K (.indirect hnd hr) path dst

theorem same_special (R : Ready W H M) (K : Kept W H M P) (hw : OrderOk W.order) (hf : Fewer lim H.mem) {recL : RecL σ} {rec : Rec}
    (hE : SameRecEL W H recL rec) {t : TId} {k : Special} {p : Loc}
    {v : Val} (hs : (W.E t).special = some k) (hr : Repr W.E H.mem t p v) (path : Path) (dst : Bytes) :
    SameAs (encodeSpecialL W P o lim recL path k p dst) (encodeSpecial W H o rec path k p dst) := by
  cases k with
  | syncMap =>
    obtain ⟨es, kvs, rfl, hat, hl, hk, hv⟩ := repr_smap R.types hs hr
    simp only [encodeSpecial, encodeSpecialL, encodeSyncMap, encodeSyncMapL]
    refine same_read (a := es) (by simp [readSyncMap, hat]) (fun s => by simp [readSyncMap, within_at (K.mem s) hat]) ?_
    have hget : ∀ a ∈ W.visit path es, ∃ (i : Nat) (b : Val × Val), es[i]? = some a ∧ kvs[i]? = some b := by
      intro a ha
      obtain ⟨i, hi⟩ := visit_get ha
      obtain ⟨b, hb⟩ := get_lt hl hi
      exact ⟨i, b, hi, hb⟩
    refine same_entries _ _ (Nat.lt_of_le_of_lt (visit_length hw _ _) ?_) (fun s j => K.sentry s path j p es hat) ?_ ?_
    · cases p with
      | heap a =>
        simp only [Mem.at] at hat
        split at hat
        · simp at hat
        · exact hf.2 _ _ hat
      | tmp w => simp [Mem.at] at hat
    · intro a ha n dst
      obtain ⟨i, b, hi, hb⟩ := hget a ha
      exact same_syncKey R K hE (hk i a b hi hb) _ _
    · intro a ha n dst
      obtain ⟨i, b, hi, hb⟩ := hget a ha
      exact same_appendJSON hE (hv i a b hi hb) _ _
  | time =>
    obtain ⟨x, rfl, hat⟩ := repr_time R.types hs hr
    exact same_read (a := x) (by simp [readTime, hat]) (fun s => by simp [readTime, within_at (K.mem s) hat]) same_ret
  | duration =>
    obtain ⟨x, rfl, hk, hat⟩ := repr_int R.types (R.types.duration _ hs) hr
    refine same_read (a := x) (by simp [readInt, hat, hk]) (fun s => by simp [readInt, within_at (K.mem s) hat, hk]) ?_
    cases x <;> exact same_ret
  | number =>
    obtain ⟨x, rfl, hat⟩ := repr_str R.types (R.types.number _ hs) hr
    exact same_read (a := x) (by simp [readStr, hat]) (fun s => by simp [readStr, within_at (K.mem s) hat]) same_ret
  | rawMessage =>
    obtain ⟨e, hk, he⟩ := R.types.rawMessage _ hs
    obtain ⟨b, hb⟩ := byteSliceOf_some R.types hk he hr
    have hb' := (readByteSlice_eq R.types hk he hr).trans hb
    exact same_read hb' (fun s => within_byteSlice (K.mem s) hb') same_ret

theorem same_exec (R : Ready W H M) (K : Kept W H M P) (hw : OrderOk W.order) (hf : Fewer lim H.mem) {recL : RecL σ} {rec : Rec}
    (hA : SameRecL W H recL rec) (hE : SameRecEL W H recL rec)
    {t : TId} {ca : Bool} {i : Instr} {p : Loc} {v : Val} (hty : Typed W.E t ca i) (hr : Repr W.E H.mem t p v)
    (hca : ca = true → isPtrK (W.E t).kind = true ∨ InHeap p) (path : Path) (dst : Bytes) :
    SameAs (execL W P o lim recL path i p dst) (exec W H o rec path i p dst) := by
  cases hty with
  | goType hs => exact same_special R K hw hf hE hs hr path dst
  | marsh h hs => exact same_marshaler R K (.marsh h hs) hr hca path dst
  | marshP hn hm h hk hs => exact same_marshaler R K (.marshP hn hm h hk hs) hr hca path dst
  | bool hk =>
    obtain ⟨b, rfl, hat⟩ := repr_bool R.types hk hr
    exact same_read (a := b) (by simp [readBool, hat]) (fun s => by simp [readBool, within_at (K.mem s) hat]) same_ret
  | int hk =>
    obtain ⟨b, rfl, hkk, hat⟩ := repr_int R.types hk hr
    exact same_read (a := b) (by simp [readInt, hat, hkk]) (fun s => by simp [readInt, within_at (K.mem s) hat, hkk]) same_ret
  | float hk =>
    obtain ⟨b, rfl, hat⟩ := repr_float R.types hk hr
    exact same_read (a := b) (by simp [readFloat, hat]) (fun s => by simp [readFloat, within_at (K.mem s) hat]) same_ret
  | string hk =>
    obtain ⟨b, rfl, hat⟩ := repr_str R.types hk hr
    exact same_read (a := b) (by simp [readStr, hat]) (fun s => by simp [readStr, within_at (K.mem s) hat]) same_ret
  | quotedString hk =>
    obtain ⟨b, rfl, hat⟩ := repr_str R.types hk hr
    exact same_read (a := b) (by simp [readStr, hat]) (fun s => by simp [readStr, within_at (K.mem s) hat]) same_ret
  | @quoted _ _ j hi => exact same_andThen (hA hi hr hca _ _) fun b => same_ret
  | nilText hp hi =>
    cases hkk : (W.E t).kind with
    | ptr e =>
      have := hA hi hr hca path dst
      rcases repr_ptr R.types hkk hr with ⟨rfl, hat⟩ | ⟨a, x, rfl, hat, ha, hx⟩
      · exact same_read (a := 0) (by simp [readWord, hat]) (fun s => by simp [readWord, within_at (K.mem s) hat]) same_ret
      · refine same_read (a := a) (by simp [readWord, hat]) (fun s => by simp [readWord, within_at (K.mem s) hat]) ?_
        simp only [ha, if_false]
        exact this
    | _ => simp [hkk, isPtrK] at hp
  | @iface _ _ n hk hany =>
    obtain ⟨x, hat, -, hx⟩ := repr_eface R.types hk hany hr
    refine same_read hat (fun s => within_eface (K.mem s) hat) ?_
    have hj := same_appendJSON hE hx path dst
    cases hx with
    | nil => exact same_ret
    | direct hd hrep => exact hj
    | indirect hd hrep => exact hj
  | struct hk hs =>
    have hst : IsStruct W.E t := by
      revert hk
      cases hkk : (W.E t).kind <;> simp [isStructK]
      exact ⟨_, hkk⟩
    simp only [exec, execL]
    split
    · exact same_ret
    · cases hfl : structFieldsInstr W.E W.U W.grow W.sort W.tfuel t ca with
      | none => exact same_ret
      | some fl =>
        obtain ⟨l, hl, _, hok⟩ := structFieldsInstr_ok hfl
        have hroute := structFields_route R.tab (R.apart t) R.sort hl
        refine same_structLoop (ca := ca) R K hA hr hst ?_ _ _ _ _ ?_
        · intro hc
          rcases hca hc with h | h
          · obtain ⟨fs, hfs⟩ := hst
            simp only [HasFields] at hfs
            simp [hfs, isPtrK] at h
          · exact h
        · intro f hf
          exact ⟨(hok f hf).2, hroute _ (hok f hf).1⟩
  | map hk hkm hki hvi =>
    simp only [exec, execL, encodeMap, encodeMapL]
    rcases repr_map R.types hk hr with ⟨rfl, hat⟩ | ⟨a, es, kvs, rfl, hat, ha, hat2, hl, hks, hvs⟩
    · exact same_read (a := 0) (by simp [readWord, hat]) (fun s => by simp [readWord, within_at (K.mem s) hat]) same_ret
    · refine same_read (a := a) (by simp [readWord, hat]) (fun s => by simp [readWord, within_at (K.mem s) hat]) ?_
      simp only [ha, if_false]
      refine same_read (a := es) (by simp [readMap, hat2]) (fun s => by simp [readMap, within_at (K.mem s) hat2]) ?_
      split
      · exact same_ret
      · have hma : H.mem a = some (.hmap es) := by simpa [Mem.at, ha] using hat2
        have hget : ∀ x ∈ W.visit path es, ∃ (i : Nat) (b : Val × Val), es[i]? = some x ∧ kvs[i]? = some b := by
          intro x hx
          obtain ⟨i, hi⟩ := visit_get hx
          obtain ⟨b, hb⟩ := get_lt hl hi
          exact ⟨i, b, hi, hb⟩
        refine same_entries _ _ (Nat.lt_of_le_of_lt (visit_length hw _ _) (hf.1 _ _ hma)) (fun s j => K.entry s path j a es hma) ?_ ?_
        · intro x hx n dst
          obtain ⟨i, b, hi, hb⟩ := hget x hx
          exact hA hki (hks i x b hi hb) (by simp) _ _
        · intro x hx n dst
          obtain ⟨i, b, hi, hb⟩ := hget x hx
          exact hA hvi (hvs i x b hi hb) (by simp) _ _
  | byteSlice hk he =>
    obtain ⟨b, hb⟩ := byteSliceOf_some R.types hk he hr
    have hb' := (readByteSlice_eq R.types hk he hr).trans hb
    exact same_read hb' (fun s => within_byteSlice (K.mem s) hb') same_ret
  | slice hk hi =>
    rcases repr_slice R.types hk hr with ⟨rfl, hat⟩ | ⟨d, vs, rfl, hat, hd, hvs⟩
    · exact same_read (a := (0, 0)) (by simp [readSlice, hat]) (fun s => by simp [readSlice, within_at (K.mem s) hat]) same_ret
    · refine same_read (a := (d, vs.length)) (by simp [readSlice, hat]) (fun s => by simp [readSlice, within_at (K.mem s) hat]) ?_
      simp only [hd, if_false]
      split
      · exact same_ret
      · refine same_array R K (by simp) (fun i x hx => by simpa [Loc.add] using hvs i x hx) (fun j hj path dst => ?_) dst
        have := hvs j _ (List.getElem?_eq_getElem hj)
        exact hA hi (p := (Loc.heap d).add _) (by simpa [Loc.add] using this) (fun _ => .inr (inHeap_add ⟨d, hd, rfl⟩ _)) path dst
  | array hk hb hi =>
    obtain ⟨vs, rfl, rfl, hvs⟩ := repr_array R.types hk hr
    simp only [exec, execL]
    refine same_array R K hb hvs (fun j hj path dst => ?_) dst
    refine hA hi (hvs j _ (List.getElem?_eq_getElem hj)) (fun hc => .inr (inHeap_add ?_ _)) path dst
    rcases hca hc with h | h
    · simp [hk, isPtrK] at h
    · exact h
  | ptr hk hi =>
    rcases repr_ptr R.types hk hr with ⟨rfl, hat⟩ | ⟨a, x, rfl, hat, ha, hx⟩
    · exact same_read (a := 0) (by simp [readWord, hat]) (fun s => by simp [readWord, within_at (K.mem s) hat]) same_ret
    · refine same_read (a := a) (by simp [readWord, hat]) (fun s => by simp [readWord, within_at (K.mem s) hat]) ?_
      simp only [ne_eq, ha, not_false_iff, if_true]
      exact hA hi hx (fun _ => .inr ⟨a, ha, rfl⟩) path dst
  | unsupported => exact same_ret

theorem same_run (R : Ready W H M) (K : Kept W H M P) (hw : OrderOk W.order) (hf : Fewer lim H.mem) :
    ∀ n, SameRecL W H (runL W P o lim n) (run W H o n) ∧ SameRecEL W H (runL W P o lim n) (run W H o n)
  | 0 => ⟨fun _ _ _ _ _ => same_ret, fun _ _ _ _ => same_ret⟩
  | n + 1 => by
    obtain ⟨hA, hE⟩ := same_run R K hw hf n
    have hA' : SameRecL W H (runL W P o lim (n + 1)) (run W H o (n + 1)) := fun hty hr hca path dst =>
      same_exec R K hw hf hA hE hty hr hca path dst
    refine ⟨hA', ?_⟩
    intro t w v i hx hi path dst
    obtain ⟨rank, hrank, hlt⟩ := R.nest
    have hdir := isInlined_iff hrank W.tfuel t (hlt t)
    obtain ⟨j, hj, rfl⟩ := instrFor_cases hi
    cases hx with
    | direct hd hr =>
      rw [if_pos (hdir.mpr hd)]
      simp only [run, runL, exec, execL]
      exact hA hj hr (fun h => .inl h) path dst
    | indirect hd hr =>
      rw [if_neg (fun h => pointed_not_inlined hd (hdir.mp h))]
      exact hA' hj hr (fun h => .inl h) path dst

end Jettison.Proofs
