import Verif.Proofs.LiveReads

/-! # Instructions never misread memory that changes -/

namespace Jettison.Proofs
open Jettison Jettison.Model Jettison.Spec

variable {σ : Type} {W : World} {P : Around σ} {T : σ → Places} {o : EncOpts} {lim : Nat}

/-- No misread, and no variable is lost. -/
def Safe (T : σ → Places) (c : Act σ) (s : σ) : Prop := (c s).1 ≠ .bad ∧ (T s).Le (T (c s).2)

theorem safe_ret {r : Res} {s : σ} (h : r ≠ .bad) : Safe T (.ret r) s := ⟨h, le_refl _⟩

theorem safe_andThen {c : Act σ} {f : Bytes → Act σ} {s : σ} (h : Safe T c s) (hf : ∀ b s1, (T s).Le (T s1) → Safe T (f b) s1) :
    Safe T (c.andThen f) s := by
  unfold Safe Act.andThen
  cases hc : c s with
  | mk r s1 =>
    have h1 : (T s).Le (T s1) := by simpa [hc] using h.2
    cases r with
    | ok b =>
      have := hf b s1 h1
      exact ⟨this.1, le_trans h1 this.2⟩
    | bad => have := h.1; rw [hc] at this; exact absurd rfl this
    | _ => exact ⟨by simp, h1⟩

theorem safe_read {α : Type} {x : σ → Option α} {f : α → Act σ} {s : σ} {a : α} (hx : x s = some a) (h : Safe T (f a) s) :
    Safe T (withReadL x f) s := by
  unfold Safe withReadL
  rw [hx]
  exact h

theorem safe_unsorted {α : Type} {next : σ → Nat → Option α} {kf vf : Nat → α → Bytes → Act σ} {A : σ → α → Prop} (s0 : σ)
    (hn : ∀ s n a, (T s0).Le (T s) → next s n = some a → A s a)
    (hk : ∀ s a n dst, (T s0).Le (T s) → A s a → Safe T (kf n a dst) s)
    (hv : ∀ s s' a n dst, (T s0).Le (T s) → A s a → (T s).Le (T s') → Safe T (vf n a dst) s') : ∀ (lim n : Nat) (dst : Bytes) (s : σ), (T s0).Le (T s) →
      Safe T (unsortedLoopL next kf vf lim n dst) s
  | 0, _, _, _, _ => safe_ret (by simp)
  | lim + 1, n, dst, s, h0 => by
    unfold Safe
    simp only [unsortedLoopL]
    cases hx : next s n with
    | none => exact ⟨by simp, le_refl _⟩
    | some a =>
      have ha := hn s n a h0 hx
      refine safe_andThen (hk s a n _ h0 ha) fun b s1 h1 => safe_andThen (hv s s1 a n _ h0 ha h1) fun b' s2 h2 => ?_
      exact safe_unsorted s0 hn hk hv lim (n + 1) b' s2 (le_trans h0 (le_trans h1 h2))

theorem safe_sorted {α : Type} {next : σ → Nat → Option α} {kf vf : Nat → α → Bytes → Act σ} {A : σ → α → Prop} (s0 : σ)
    (hn : ∀ s n a, (T s0).Le (T s) → next s n = some a → A s a)
    (hk : ∀ s a n dst, (T s0).Le (T s) → A s a → Safe T (kf n a dst) s)
    (hv : ∀ s s' a n dst, (T s0).Le (T s) → A s a → (T s).Le (T s') → Safe T (vf n a dst) s') :
    ∀ (lim n : Nat) (buf : Bytes) (mel : List (Bytes × Bytes)) (s : σ), (T s0).Le (T s) →
      (sortedLoopL next kf vf lim n buf mel s).1 ≠ .stop .bad ∧ (T s).Le (T (sortedLoopL next kf vf lim n buf mel s).2)
  | 0, _, _, _, _, _ => ⟨by simp [sortedLoopL], le_refl _⟩
  | lim + 1, n, buf, mel, s, h0 => by
    simp only [sortedLoopL]
    cases hx : next s n with
    | none => exact ⟨by simp, le_refl _⟩
    | some a =>
      have ha := hn s n a h0 hx
      have h1 := hk s a n buf h0 ha
      unfold Safe at h1
      simp only
      cases hc : kf n a buf s with
      | mk r s1 =>
        rw [hc] at h1
        cases r with
        | ok buf1 =>
          simp only
          split
          · exact ⟨by simp, h1.2⟩
          · have h2 := hv s s1 a n (buf1 ++ b! ":") h0 ha h1.2
            unfold Safe at h2
            cases hc' : vf n a (buf1 ++ b! ":") s1 with
            | mk r s2 =>
              rw [hc'] at h2
              have h12 := le_trans h1.2 h2.2
              cases r with
              | ok buf2 =>
                simp only
                split
                · exact ⟨by simp, h12⟩
                · have := safe_sorted s0 hn hk hv lim (n + 1) buf2 (mel ++ [(slice buf1 (buf.length + 1) (buf1.length - 1), buf2.drop buf.length)]) s2
                    (le_trans h0 h12)
                  exact ⟨this.1, le_trans h12 this.2⟩
              | bad => exact absurd rfl h2.1
              | _ => exact ⟨by simp, h12⟩
        | bad => exact absurd rfl h1.1
        | _ => exact ⟨by simp, h1.2⟩

theorem safe_entries {α : Type} {next : σ → Nat → Option α} {kf vf : Nat → α → Bytes → Act σ} {A : σ → α → Prop} (s : σ)
    (hn : ∀ s' n a, (T s).Le (T s') → next s' n = some a → A s' a)
    (hk : ∀ s' a n dst, (T s).Le (T s') → A s' a → Safe T (kf n a dst) s')
    (hv : ∀ s' s'' a n dst, (T s).Le (T s') → A s' a → (T s').Le (T s'') → Safe T (vf n a dst) s'') (dst : Bytes) :
    Safe T (encodeEntriesL W o lim next kf vf dst) s := by
  unfold encodeEntriesL
  refine safe_andThen ?_ fun b s1 h1 => safe_ret (by simp)
  split
  · exact safe_unsorted s hn hk hv lim 0 _ s (le_refl _)
  · have h := safe_sorted s hn hk hv lim 0 [] [] s (le_refl _)
    unfold Safe encodeSortedL
    cases hc : sortedLoopL next kf vf lim 0 [] [] s with
    | mk r s1 =>
      rw [hc] at h
      cases r with
      | ok mel => exact ⟨by simp, h.2⟩
      | stop r =>
        cases r with
        | bad => exact absurd rfl h.1
        | _ => exact ⟨by simp, h.2⟩

/-- Recursive calls are safe. -/
def SafeRec (W : World) (T : σ → Places) (rec : RecL σ) : Prop :=
  ∀ {t ca i p s}, Typed W.E t ca i → (T s).val t p → (ca = true → isPtrK (W.E t).kind = true ∨ InHeap p) →
    ∀ path dst, Safe T (rec path i p dst) s

def SafeRecE (W : World) (T : σ → Places) (rec : RecL σ) : Prop :=
  ∀ {t w i s}, (T s).Held W.E (some (t, w)) → instrFor W.E W.tfuel t = some i → ∀ path dst, Safe T (rec path i (.heap w) dst) s

theorem safe_appendJSON {rec : RecL σ} (hE : SafeRecE W T rec) {x : Eface} {s : σ} (h : (T s).Held W.E x) (path : Path) (dst : Bytes) :
    Safe T (appendJSONL W rec path x dst) s := by
  cases x with
  | none => exact safe_ret (by simp)
  | some x =>
    obtain ⟨t, w⟩ := x
    simp only [appendJSONL]
    cases hi : instrFor W.E W.tfuel t with
    | none => exact safe_ret (by simp)
    | some i => exact hE h hi _ _

theorem safe_syncKey (R : Grounds W) (C : Careful W.E P T) {rec : RecL σ} (hE : SafeRecE W T rec) {x : Eface} {s : σ} (h : (T s).Held W.E x)
    (path : Path) (dst : Bytes) : Safe T (appendSyncMapKeyL W P o rec path x dst) s := by
  cases x with
  | none => exact safe_ret (by simp)
  | some x =>
    obtain ⟨t, w⟩ := x
    simp only [appendSyncMapKeyL]
    split
    · exact safe_ret (by simp)
    · split
      · next hs =>
        have hk := isStringK_iff.mp hs
        cases h with
        | direct hd _ => exact absurd hd (direct_not_string hk)
        | indirect _ hv =>
          obtain ⟨b, hat⟩ := laid_str R.types hk ((C.sane s).val _ _ hv)
          exact safe_read (a := b) (by simp [readStr, hat]) (safe_ret (by simp))
      · exact safe_andThen (safe_appendJSON hE h _ _) fun b s1 _ => safe_ret (by simp)

theorem safe_arrayLoop {rec : RecL σ} {path : Path} {ins : Instr} {es : Nat} {p : Loc} (s0 : σ) :
    ∀ (n i : Nat) (dst : Bytes) (s : σ), (T s0).Le (T s) → (∀ j, j < n → ∀ s', (T s0).Le (T s') → ∀ path dst, Safe T (rec path ins (p.add ((i + j) * es)) dst) s') →
    Safe T (arrayLoopL rec path ins es p i n dst) s
  | 0, i, dst, s, _, _ => safe_ret (by simp)
  | n + 1, i, dst, s, h0, h => by
    simp only [arrayLoopL]
    refine safe_andThen ?_ fun b s1 h1 => ?_
    · have := h 0 (by omega) s h0; simp only [Nat.add_zero] at this; exact this _ _
    · refine safe_arrayLoop s0 n (i + 1) b s1 (le_trans h0 h1) fun j hj => ?_
      have := h (j + 1) (by omega)
      rwa [show i + 1 + j = i + (j + 1) by omega]

theorem safe_array (R : Grounds W) (C : Careful W.E P T) {rec : RecL σ} (hA : SafeRec W T rec) {path : Path} {ins : Instr} {e : TId} {ca : Bool} {p : Loc}
    {isba : Bool} {n : Nat} {s : σ} (hb : isba = true → (W.E e).kind = .int .uint8) (hi : Typed W.E e ca ins)
    (hca : ca = true → ∀ i, InHeap (p.add i))
    (hv : ∀ i, i < n → (T s).val e (p.add (i * (W.E e).size))) (dst : Bytes) :
    Safe T (encodeArrayL P o rec path ins (W.E e).size n isba p dst) s := by
  simp only [encodeArrayL]
  split
  · next hc =>
    simp only [Bool.and_eq_true] at hc
    have hk := hb hc.1
    obtain ⟨b, hb⟩ := laid_bytes R.types (C.sane s) hk n p (fun i hi => by
      have := hv i hi
      rwa [R.types.byteSize _ hk, Nat.mul_one] at this)
    exact safe_read (a := b) hb (safe_ret (by simp))
  · refine safe_arrayLoop s n 0 dst s (le_refl _) fun j hj s' h' path dst => ?_
    rw [Nat.zero_add]
    exact hA hi (h'.1 _ _ (hv j hj)) (fun hc => .inr (hca hc _)) path dst

theorem safe_structLoop (R : Grounds W) (C : Careful W.E P T) {rec : RecL σ} (hA : SafeRec W T rec) {t : TId} {ca : Bool} {l : Loc} (s0 : σ)
    (hv : (T s0).val t l) (ht : IsStruct W.E t) (hca : ca = true → InHeap l) {path : Path} :
    ∀ (fs : List FInstr) (i : Nat) (first : Bool) (dst : Bytes) (s : σ), (T s0).Le (T s) →
    (∀ f ∈ fs, (∃ ftyp, FieldOk W.E t ca f ftyp) ∧ RouteOk W.E W.U t f.fld) →
    Safe T (structLoopL P o rec path l i fs first dst) s
  | [], _, _, _, _, _, _ => safe_ret (by simp)
  | f :: fs, i, first, dst, s, h0, h => by
    obtain ⟨⟨ftyp, hf⟩, hr⟩ := h f (by simp)
    have ih := fun i first dst s h0 => safe_structLoop R C hA s0 hv ht hca (path := path) fs i first dst s h0 (fun g hg => h g (by simp [hg]))
    simp only [structLoopL]
    have hfl := field_arrives (o := o) R.types (C.sane s) (h0.1 _ _ hv) ht hf hr
    generalize hA' : fieldLoc (P.mem s) o f l = A at hfl
    cases hfl with
    | nil => exact safe_read (a := none) hA' (ih _ _ _ s h0)
    | @found l' hval hheap =>
      refine safe_read (a := some l') hA' (safe_andThen (hA hf.instr hval (fun hc => .inr (hheap (hca hc))) _ _) fun b s1 h1 => ?_)
      split
      · exact ih _ _ _ s1 (le_trans h0 h1)
      · exact ih _ _ _ s1 (le_trans h0 h1)

theorem safe_callMeth (C : Careful W.E P T) {k : MethKind} {t rt : TId} {w : Loc} {dst : Bytes} {s : σ} (h : Called W.E (P.mem s) (T s) rt w) :
    Safe T (callMethL W P o k t rt w dst) s := by
  refine ⟨by simp only [callMethL]; exact callMeth_nobad, ?_⟩
  simp only [callMethL]
  cases k <;> exact C.meth _ _ _ _ _ _ h

theorem held_called (C : Careful W.E P T) {s : σ} {t : TId} {w : Addr} (h : (T s).Held W.E (some (t, w))) : Called W.E (P.mem s) (T s) t (.heap w) := by
  cases h with
  | direct hd hv => exact .direct (inlined_direct hd) ((C.sane s).val _ _ hv)
  | indirect hd hv => exact hd.elim (fun h => .indirect h.1 ((C.sane s).val _ _ hv)) (fun h => .blank h ((C.sane s).val _ _ hv))

theorem safe_marshaler (R : Grounds W) (C : Careful W.E P T) {t : TId} {ca : Bool} {m : MethKind} {hp : Bool} {p : Loc} {s : σ}
    (hty : Typed W.E t ca (.marshaler m t hp)) (hv : (T s).val t p)
    (hca : ca = true → isPtrK (W.E t).kind = true ∨ InHeap p) (dst : Bytes) : Safe T (encodeMarshalerL W P o m t hp p dst) s := by
  have hl := (C.sane s).val _ _ hv
  cases hty with
  | marshP hn hm hc hk hs =>
    have hin : InHeap p := by rcases hca hc with h | h; · simp [hk] at h
                              exact h
    obtain ⟨a, ha, rfl⟩ := hin
    have hpk := R.types.ptrTo_kind t
    have hne : Loc.heap a ≠ .heap 0 := by simpa using ha
    simp only [encodeMarshalerL, Bool.not_true, Bool.false_eq_true, if_false, hne, invokeMethL]
    refine safe_read (a := some (W.ptrTo t, .heap a)) (by simp [receiver, hpk, ifaceK]) ?_
    exact safe_callMeth C (.direct (.ptr hpk) (.ptr hpk (by simp [Mem.at]) fun _ => hv))
  | marsh hhas hs =>
    have hany := has_any hhas
    simp only [encodeMarshalerL, Bool.not_false, if_true]
    cases hkk : (W.E t).kind with
    | ptr e =>
      obtain ⟨a, hat, ha⟩ := laid_ptr R.types hkk hl
      simp only [isPtrK, Bool.true_or, if_true]
      refine safe_read (a := a == 0) (by simp [firstWordNil, hat]) ?_
      split
      · exact safe_ret (by simp)
      · next h0 =>
        simp only [beq_iff_eq] at h0
        refine safe_read (a := some (t, .heap a)) (by simp [receiver, hkk, ifaceK, isPtrK, readWord, hat]) ?_
        exact safe_callMeth C (.direct (.ptr hkk) (.ptr hkk (by simp [Mem.at]) ha))
    | iface n =>
      obtain ⟨x, hat, hx⟩ := laid_iface R.types hkk hl
      have hfn : firstWordNil (P.mem s) p = some x.isNone := by
        rcases hat with ⟨_, h⟩ | ⟨_, h⟩ <;> simp [firstWordNil, h]
      have hrd : (if n = 0 then readEface (P.mem s) p else readIface (P.mem s) p) = some x := by
        rcases hat with ⟨h0, h⟩ | ⟨h0, h⟩ <;> simp [readEface, readIface, h, h0]
      simp only [isPtrK, ifaceK, Option.isSome_some, Bool.or_true, if_true]
      refine safe_read hfn ?_
      cases x with
      | none => exact safe_ret (by simp)
      | some y =>
        obtain ⟨d, w⟩ := y
        refine safe_read (a := some (d, .heap w)) (by simp [receiver, hkk, ifaceK, hrd]) ?_
        exact safe_callMeth C (held_called C hx)
    | _ =>
      have hnd : ¬ Direct W.E t := laid_bare (by simp [hkk, isPtrK]) hs hl hany
      simp only [isPtrK, ifaceK, Option.isSome_none, Bool.or_self, Bool.false_eq_true, if_false]
      refine safe_read (a := some (t, p)) (by simp [receiver, hkk, ifaceK, isPtrK]) ?_
      exact safe_callMeth C (.indirect hnd hl)

theorem safe_special (R : Grounds W) (C : Careful W.E P T) {rec : RecL σ} (hE : SafeRecE W T rec) {t : TId} {k : Special} {p : Loc} {s : σ}
    (hs : (W.E t).special = some k) (hv : (T s).val t p) (path : Path) (dst : Bytes) : Safe T (encodeSpecialL W P o lim rec path k p dst) s := by
  have hl := (C.sane s).val _ _ hv
  cases k with
  | syncMap =>
    obtain ⟨es, hat, -⟩ := laid_smap R.types hs hl
    simp only [encodeSpecialL, encodeSyncMapL]
    refine safe_read (a := es) (by simp [readSyncMap, hat]) ?_
    refine safe_entries (A := fun s x => (T s).Held W.E x.1 ∧ (T s).Held W.E x.2) s ?_ ?_ ?_ dst
    · intro s' n a h hx; exact C.sentry _ _ _ _ _ _ (h.1 _ _ hv) hs hx
    · intro s' a n dst _ ha; exact safe_syncKey R C hE ha.1 _ _
    · intro s' s'' a n dst _ ha h'; exact safe_appendJSON hE (held_le h' ha.2) _ _
  | time =>
    obtain ⟨x, hat⟩ := laid_time R.types hs hl
    exact safe_read (a := x) (by simp [readTime, hat]) (safe_ret bres_nobad)
  | duration =>
    obtain ⟨x, hk, hat⟩ := laid_int R.types (R.types.duration _ hs) hl
    cases x <;> simp [IntVal.kind] at hk
    next d => exact safe_read (a := .int64 d) (by simp [readInt, hat, IntVal.kind]) (safe_ret bres_nobad)
  | number =>
    obtain ⟨x, hat⟩ := laid_str R.types (R.types.number _ hs) hl
    exact safe_read (a := x) (by simp [readStr, hat]) (safe_ret except_nobad)
  | rawMessage =>
    obtain ⟨e, hk, he⟩ := R.types.rawMessage _ hs
    obtain ⟨b, hb⟩ := laid_byteSlice R.types (C.sane s) hk he hl
    exact safe_read (a := b) hb (safe_ret (by simp))

theorem safe_exec (R : Grounds W) (C : Careful W.E P T) {rec : RecL σ} (hA : SafeRec W T rec) (hE : SafeRecE W T rec)
    {t : TId} {ca : Bool} {i : Instr} {p : Loc} {s : σ} (hty : Typed W.E t ca i) (hv : (T s).val t p)
    (hca : ca = true → isPtrK (W.E t).kind = true ∨ InHeap p) (path : Path) (dst : Bytes) : Safe T (execL W P o lim rec path i p dst) s := by
  have hl := (C.sane s).val _ _ hv
  have hin : isPtrK (W.E t).kind = false → ca = true → ∀ i, InHeap (p.add i) := by
    intro h1 hc i
    rcases hca hc with h | h
    · rw [h1] at h; cases h
    · exact inHeap_add h i
  cases hty with
  | goType hs => exact safe_special R C hE hs hv path dst
  | marsh h hs => exact safe_marshaler R C (.marsh h hs) hv hca dst
  | marshP hn hm h hk hs => exact safe_marshaler R C (.marshP hn hm h hk hs) hv hca dst
  | bool hk => obtain ⟨b, hat⟩ := laid_bool R.types hk hl; exact safe_read (a := b) (by simp [readBool, hat]) (safe_ret (by simp))
  | int hk => obtain ⟨b, hb, hat⟩ := laid_int R.types hk hl; exact safe_read (a := b) (by simp [readInt, hat, hb]) (safe_ret (by simp))
  | float hk => obtain ⟨b, hat⟩ := laid_float R.types hk hl; exact safe_read (a := b) (by simp [readFloat, hat]) (safe_ret except_nobad)
  | string hk => obtain ⟨b, hat⟩ := laid_str R.types hk hl; exact safe_read (a := b) (by simp [readStr, hat]) (safe_ret (by simp))
  | quotedString hk => obtain ⟨b, hat⟩ := laid_str R.types hk hl; exact safe_read (a := b) (by simp [readStr, hat]) (safe_ret (by simp))
  | quoted hi => exact safe_andThen (hA hi hv hca _ _) fun b s1 _ => safe_ret (by simp)
  | nilText hp hi =>
    cases hkk : (W.E t).kind with
    | ptr e =>
      obtain ⟨a, hat, -⟩ := laid_ptr R.types hkk hl
      refine safe_read (a := a) (by simp [readWord, hat]) ?_
      split
      · exact safe_ret (by simp)
      · exact hA hi hv hca _ _
    | _ => simp [hkk, isPtrK] at hp
  | @iface _ _ n hk hany =>
    obtain ⟨x, hat, -, hx⟩ := laid_eface R.types hk hany hl
    refine safe_read (a := x) hat ?_
    cases x with
    | none => exact safe_ret (by simp)
    | some y => exact safe_appendJSON hE hx _ _
  | struct hk hs =>
    have hst : IsStruct W.E t := by
      revert hk
      cases hkk : (W.E t).kind <;> simp [isStructK]
      exact ⟨_, hkk⟩
    simp only [execL]
    split
    · exact safe_ret (by simp)
    · cases hfl : structFieldsInstr W.E W.U W.grow W.sort W.tfuel t ca with
      | none => exact safe_ret (by simp)
      | some fl =>
        obtain ⟨l, hl, _, hok⟩ := structFieldsInstr_ok hfl
        have hroute := structFields_route R.tab (R.apart t) R.sort hl
        refine safe_structLoop (ca := ca) R C hA s hv hst ?_ _ _ _ _ s (le_refl _) ?_
        · intro hc
          rcases hca hc with h | h
          · obtain ⟨fs, hfs⟩ := hst
            simp only [HasFields] at hfs
            simp [hfs, isPtrK] at h
          · exact h
        · intro f hf
          exact ⟨(hok f hf).2, hroute _ (hok f hf).1⟩
  | @map _ _ k e _ _ hk hkm hki hvi =>
    obtain ⟨a, hat, ha⟩ := laid_map R.types hk hl
    simp only [execL, encodeMapL]
    refine safe_read (a := a) (by simp [readWord, hat]) ?_
    split
    · exact safe_ret (by simp)
    · next h0 =>
      have hm := ha h0
      obtain ⟨es, hes, -⟩ := (C.sane s).map _ _ _ hm
      refine safe_read (a := es) (by simp [readMap, hes]) ?_
      split
      · exact safe_ret (by simp)
      · refine safe_entries (A := fun s x => (T s).val k (.heap x.1) ∧ (T s).val e (.heap x.2)) s ?_ ?_ ?_ dst
        · intro s' n a h hx; exact C.entry _ _ _ _ _ _ _ (h.2 _ _ _ hm) hx
        · intro s' a n dst _ hx; exact hA hki hx.1 (by simp) _ _
        · intro s' s'' a n dst _ hx h'; exact hA hvi (h'.1 _ _ hx.2) (by simp) _ _
  | byteSlice hk he =>
    obtain ⟨b, hb⟩ := laid_byteSlice R.types (C.sane s) hk he hl
    exact safe_read (a := b) hb (safe_ret (by simp))
  | slice hk hi =>
    obtain ⟨d, n, hat, hd⟩ := laid_slice R.types hk hl
    refine safe_read (a := (d, n)) (by simp [readSlice, hat]) ?_
    simp only
    split
    · exact safe_ret (by simp)
    · next h0 =>
      split
      · exact safe_ret (by simp)
      · exact safe_array R C hA (by simp) hi (fun _ i => inHeap_add ⟨d, h0, rfl⟩ i) (fun i hi => by simpa [Loc.add] using hd h0 i hi) dst
  | array hk hb hi =>
    have := laid_array R.types hk hl
    exact safe_array R C hA hb hi (hin (by rw [hk]; rfl)) this dst
  | ptr hk hi =>
    obtain ⟨a, hat, ha⟩ := laid_ptr R.types hk hl
    refine safe_read (a := a) (by simp [readWord, hat]) ?_
    split
    · next h0 => exact hA hi (ha h0) (fun _ => .inr ⟨a, h0, rfl⟩) path dst
    · exact safe_ret (by simp)
  | unsupported => exact safe_ret (by simp)

theorem safe_run (R : Grounds W) (C : Careful W.E P T) : ∀ n, SafeRec W T (runL W P o lim n) ∧ SafeRecE W T (runL W P o lim n)
  | 0 => ⟨fun _ _ _ _ _ => safe_ret (by simp), fun _ _ _ _ => safe_ret (by simp)⟩
  | n + 1 => by
    obtain ⟨hA, hE⟩ := safe_run R C n
    have hA' : SafeRec W T (runL W P o lim (n + 1)) := fun hty hv hca path dst => safe_exec R C hA hE hty hv hca path dst
    refine ⟨hA', ?_⟩
    intro t w i s hx hi path dst
    obtain ⟨rank, hrank, hlt⟩ := R.nest
    have hdir := isInlined_iff hrank W.tfuel t (hlt t)
    obtain ⟨j, hj, rfl⟩ := instrFor_cases hi
    cases hx with
    | direct hd hv =>
      rw [if_pos (hdir.mpr hd)]
      simp only [runL, execL]
      exact hA hj hv (fun h => .inl h) path dst
    | indirect hd hv =>
      rw [if_neg (fun h => pointed_not_inlined hd (hdir.mp h))]
      exact hA' hj hv (fun h => .inl h) path dst

end Jettison.Proofs
