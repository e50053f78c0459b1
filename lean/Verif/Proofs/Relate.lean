import Verif.Proofs.Abs
import Verif.Proofs.Prefix

/-!
# Relating two encodings

If the nested calls of two runs are related by a relation that is closed under
sequencing, so are their results. Used for fuel, for errors and for the context.
-/

namespace Jettison.Proofs
open Jettison Jettison.Model Jettison.Spec

/-- Going on after a successful result; the buffer of a failure may be replaced. -/
def Res.bindG (g : Bytes → Bytes) (r : Res) (k : Bytes → Res) : Res :=
  match r with
  | .ok b => k b
  | .fail e b => .fail e (g b)
  | r => r

/-- A relation closed under sequencing. -/
structure Cong (Q : Res → Res → Prop) : Prop where
  refl : ∀ r, Q r r
  bind : ∀ {r r'}, Q r r' → ∀ {k k' : Bytes → Res}, (∀ b, Q (k b) (k' b)) → ∀ g, Q (Res.bindG g r k) (Res.bindG g r' k')

theorem bindG_id (r : Res) (k : Bytes → Res) : (match r with | .ok b => k b | r => r) = Res.bindG id r k := by
  cases r <;> rfl

variable {Q : Res → Res → Prop}

theorem Cong.seq (C : Cong Q) {r r' : Res} {k k' : Bytes → Res} : Q r r' → (∀ b, Q (k b) (k' b)) →
    Q (match r with | .ok b => k b | r => r) (match r' with | .ok b => k' b | r => r) := by
  intro h hk
  have := C.bind h hk id
  revert this
  cases r <;> cases r' <;> simp only [Res.bindG, id] <;> exact fun h => h

theorem Cong.withRead (C : Cong Q) {α : Type} (r : Option α) {f f' : α → Res} (h : ∀ a, Q (f a) (f' a)) :
    Q (Model.withRead r f) (Model.withRead r f') := by
  cases r with
  | none => exact C.refl _
  | some a => exact h a

theorem Cong.unsorted (C : Cong Q) {α : Type} {kf vf kf' vf' : Nat → α → Bytes → Res} (hk : ∀ n a dst, Q (kf n a dst) (kf' n a dst))
    (hv : ∀ n a dst, Q (vf n a dst) (vf' n a dst)) : ∀ (l : List α) (n : Nat) (dst : Bytes),
    Q (unsortedLoop kf vf n l dst) (unsortedLoop kf' vf' n l dst)
  | [], _, _ => C.refl _
  | a :: l, n, dst => by
    have ih := Cong.unsorted C hk hv l
    simp only [unsortedLoop]
    refine C.seq (hk n a _) (fun d => ?_)
    exact C.seq (hv n a _) (fun b => ih _ _)

/-- What `encodeSorted` makes of the collected entries. -/
def finish (f : List (Bytes × Bytes) → Bytes) (dst : Bytes) : Coll → Res
  | .ok mel => .ok (f mel)
  | .stop (.fail e _) => .fail e dst
  | .stop r => r

theorem finish_step {α : Type} (kf vf : Nat → α → Bytes → Res) (f : List (Bytes × Bytes) → Bytes) (dst : Bytes) (n : Nat) (a : α)
    (l : List α) (buf : Bytes) (mel : List (Bytes × Bytes)) :
    finish f dst (sortedLoop kf vf n (a :: l) buf mel) = Res.bindG (fun _ => dst) (kf n a buf) fun buf1 =>
      if buf1.length < buf.length + 2 then .panic
      else Res.bindG (fun _ => dst) (vf n a (buf1 ++ b! ":")) fun buf2 =>
        if buf2.length < buf.length then .panic
        else finish f dst (sortedLoop kf vf (n + 1) l buf2
          (mel ++ [(slice buf1 (buf.length + 1) (buf1.length - 1), buf2.drop buf.length)])) := by
  simp only [sortedLoop]
  cases kf n a buf with
  | ok b =>
    simp only [Res.bindG]
    split
    · rfl
    · cases vf n a (b ++ b! ":") with
      | ok b2 => simp only; split <;> rfl
      | _ => rfl
  | _ => rfl

theorem Cong.sortedL (C : Cong Q) {α : Type} {kf vf kf' vf' : Nat → α → Bytes → Res} (hk : ∀ n a dst, Q (kf n a dst) (kf' n a dst))
    (hv : ∀ n a dst, Q (vf n a dst) (vf' n a dst)) (f : List (Bytes × Bytes) → Bytes) (dst : Bytes) :
    ∀ (l : List α) (n : Nat) (buf : Bytes) (mel : List (Bytes × Bytes)),
    Q (finish f dst (sortedLoop kf vf n l buf mel)) (finish f dst (sortedLoop kf' vf' n l buf mel))
  | [], _, _, _ => C.refl _
  | a :: l, n, buf, mel => by
    have ih := Cong.sortedL C hk hv f dst l
    rw [finish_step, finish_step]
    apply C.bind (hk n a buf)
    intro b
    split
    · exact C.refl _
    · apply C.bind (hv n a _)
      intro b2
      split
      · exact C.refl _
      · exact ih _ _ _

theorem encodeSorted_finish {α : Type} (sort : SortAlg) (kf vf : Nat → α → Bytes → Res) (l : List α) (dst : Bytes) :
    encodeSorted sort kf vf l dst = finish (fun mel => joinEntries true (sort kvLess mel) dst) dst (sortedLoop kf vf 0 l [] []) := by
  simp only [encodeSorted]
  cases sortedLoop kf vf 0 l [] [] with
  | ok => rfl
  | stop r => cases r <;> rfl

theorem Cong.entries (C : Cong Q) {α : Type} {W : World} {o : EncOpts} {kf vf kf' vf' : Nat → α → Bytes → Res} (hk : ∀ n a dst, Q (kf n a dst) (kf' n a dst))
    (hv : ∀ n a dst, Q (vf n a dst) (vf' n a dst)) (l : List α) (dst : Bytes) :
    Q (encodeEntries W o kf vf l dst) (encodeEntries W o kf' vf' l dst) := by
  simp only [encodeEntries]
  apply C.seq
  · split
    · exact C.unsorted hk hv _ _ _
    · have := C.sortedL hk hv (fun mel => joinEntries true (W.sort kvLess mel) (dst ++ b! "{")) (dst ++ b! "{") l 0 [] []
      rw [encodeSorted_finish, encodeSorted_finish]; exact this
  · intro b; exact C.refl _

theorem Cong.structG (C : Cong Q) {α : Type} {o : EncOpts} {get : FInstr → Option (Option α)} {rec rec' : Path → Instr → α → Bytes → Res}
    (h : ∀ path i p dst, Q (rec path i p dst) (rec' path i p dst)) {path : Path} : ∀ (fs : List FInstr) (i : Nat) (first : Bool) (dst : Bytes),
    Q (structLoopG o get rec path i fs first dst) (structLoopG o get rec' path i fs first dst)
  | [], _, _, _ => C.refl _
  | f :: fs, i, first, dst => by
    have ih := Cong.structG C (o := o) (get := get) h (path := path) fs
    simp only [structLoopG]
    split
    · exact C.refl _
    · exact ih _ _ _
    · apply C.seq (h _ _ _ _)
      intro b
      split
      · exact ih _ _ _
      · exact ih _ _ _

theorem Cong.arrayL (C : Cong Q) {rec rec' : Rec} (h : ∀ path i p dst, Q (rec path i p dst) (rec' path i p dst)) {path : Path}
    {ins : Instr} {es : Nat} {p : Loc} : ∀ (n i : Nat) (dst : Bytes),
    Q (arrayLoop rec path ins es p i n dst) (arrayLoop rec' path ins es p i n dst)
  | 0, _, _ => C.refl _
  | n + 1, i, dst => by
    simp only [arrayLoop]
    exact C.seq (h _ _ _ _) (fun b => Cong.arrayL C h n (i + 1) b)

theorem Cong.arrayLV (C : Cong Q) {rec rec' : RecV} (h : ∀ path i p dst, Q (rec path i p dst) (rec' path i p dst)) {path : Path}
    {ins : Instr} : ∀ (vs : List Val) (i : Nat) (dst : Bytes),
    Q (arrayLoopV rec path ins i vs dst) (arrayLoopV rec' path ins i vs dst)
  | [], _, _ => C.refl _
  | v :: vs, i, dst => by
    simp only [arrayLoopV]
    exact C.seq (h _ _ _ _) (fun b => Cong.arrayLV C h vs (i + 1) b)

variable {W : World} {H H' : Heap} {M M' : MethV} {o o' : EncOpts}

theorem Cong.appendJSON (C : Cong Q) {rec rec' : Rec} (h : ∀ path i p dst, Q (rec path i p dst) (rec' path i p dst)) (path : Path) (v : Eface)
    (dst : Bytes) : Q (Model.appendJSON W rec path v dst) (Model.appendJSON W rec' path v dst) := by
  cases v with
  | none => exact C.refl _
  | some x =>
    simp only [Model.appendJSON]
    split
    · exact C.refl _
    · exact h _ _ _ _

theorem Cong.syncKey (C : Cong Q) (hm : H.mem = H'.mem) {rec rec' : Rec} (h : ∀ path i p dst, Q (rec path i p dst) (rec' path i p dst)) (path : Path) (v : Eface)
    (dst : Bytes) : Q (appendSyncMapKey W H o rec path v dst) (appendSyncMapKey W H' o rec' path v dst) := by
  cases v with
  | none => exact C.refl _
  | some x =>
    simp only [appendSyncMapKey, hm]
    split
    · exact C.refl _
    · split
      · exact C.refl _
      · exact C.seq (C.appendJSON h _ _ _) (fun b => C.refl _)

theorem Cong.special (C : Cong Q) (hm : H.mem = H'.mem) {rec rec' : Rec} (h : ∀ path i p dst, Q (rec path i p dst) (rec' path i p dst)) (path : Path) (s : Special)
    (p : Loc) (dst : Bytes) : Q (encodeSpecial W H o rec path s p dst) (encodeSpecial W H' o rec' path s p dst) := by
  cases s with
  | syncMap =>
    simp only [encodeSpecial, encodeSyncMap, hm]
    exact C.withRead _ (fun es => C.entries (fun n a dst => C.syncKey hm h _ _ _) (fun n a dst => C.appendJSON h _ _ _) _ _)
  | _ => simp only [encodeSpecial, hm]; exact C.refl _

theorem Cong.exec (C : Cong Q) (hm : H.mem = H'.mem)
    (hmeth : ∀ path m t hp p dst, Q (encodeMarshaler W H o path m t hp p dst) (encodeMarshaler W H' o path m t hp p dst))
    {rec rec' : Rec} (h : ∀ path i p dst, Q (rec path i p dst) (rec' path i p dst)) (path : Path) (i : Instr)
    (p : Loc) (dst : Bytes) : Q (exec W H o rec path i p dst) (exec W H' o rec' path i p dst) := by
  have harr : ∀ ins es len isba p dst, Q (encodeArray H o rec path ins es len isba p dst) (encodeArray H' o rec' path ins es len isba p dst) := by
    intro ins es len isba p dst
    simp only [encodeArray, hm]
    split
    · exact C.refl _
    · exact C.arrayL h _ _ _
  cases i with
  | goType s => exact C.special hm h _ _ _ _
  | marshaler m t hp => exact hmeth _ _ _ _ _ _
  | bool => simp only [Model.exec, hm]; exact C.refl _
  | int => simp only [Model.exec, hm]; exact C.refl _
  | float => simp only [Model.exec, hm]; exact C.refl _
  | string => simp only [Model.exec, hm]; exact C.refl _
  | quotedString => simp only [Model.exec, hm]; exact C.refl _
  | byteSlice => simp only [Model.exec, hm]; exact C.refl _
  | unsupported => exact C.refl _
  | quoted i => simp only [Model.exec]; exact C.seq (h _ _ _ _) (fun b => C.refl _)
  | nilText i =>
    simp only [Model.exec, hm]
    refine C.withRead _ (fun a => ?_)
    split
    · exact C.refl _
    · exact h _ _ _ _
  | inline i =>
    cases p with
    | heap w => exact h _ _ _ _
    | tmp w => exact C.refl _
  | iface =>
    simp only [Model.exec, hm]
    refine C.withRead _ (fun a => ?_)
    cases a with
    | none => exact C.refl _
    | some x => exact C.appendJSON h _ _ _
  | struct t ca =>
    simp only [Model.exec]
    split
    · exact C.refl _
    · split
      · exact C.refl _
      · rw [structLoop_G, structLoop_G, hm]; exact C.structG h _ _ _ _
  | map t ki vi =>
    simp only [Model.exec, encodeMap, hm]
    refine C.withRead _ (fun a => ?_)
    split
    · exact C.refl _
    · refine C.withRead _ (fun es => ?_)
      split
      · exact C.refl _
      · exact C.entries (fun n a dst => h _ _ _ _) (fun n a dst => h _ _ _ _) _ _
  | slice i es =>
    simp only [Model.exec, hm]
    refine C.withRead _ (fun a => ?_)
    obtain ⟨d, n⟩ := a
    simp only
    split
    · exact C.refl _
    · split
      · exact C.refl _
      · exact harr _ _ _ _ _ _
  | array i es n isba => exact harr _ _ _ _ _ _
  | ptr i =>
    simp only [Model.exec, hm]
    refine C.withRead _ (fun a => ?_)
    split
    · exact h _ _ _ _
    · exact C.refl _

theorem Cong.run (C : Cong Q) (hm : H.mem = H'.mem)
    (hmeth : ∀ path m t hp p dst, Q (encodeMarshaler W H o path m t hp p dst) (encodeMarshaler W H' o path m t hp p dst)) :
    ∀ (n : Nat) (path : Path) (i : Instr) (p : Loc) (dst : Bytes), Q (run W H o n path i p dst) (run W H' o n path i p dst)
  | 0, _, _, _, _ => C.refl _
  | n + 1, path, i, p, dst => C.exec hm hmeth (Cong.run C hm hmeth n) path i p dst

theorem Cong.appendJSONV (C : Cong Q) {rec rec' : RecV} (h : ∀ path i p dst, Q (rec path i p dst) (rec' path i p dst)) (path : Path) (v : Val)
    (dst : Bytes) : Q (Proofs.appendJSONV W rec path v dst) (Proofs.appendJSONV W rec' path v dst) := by
  cases v with
  | iface t v =>
    simp only [Proofs.appendJSONV]
    split
    · exact C.refl _
    · exact h _ _ _ _
  | _ => exact C.refl _

theorem Cong.syncKeyV (C : Cong Q) {rec rec' : RecV} (h : ∀ path i p dst, Q (rec path i p dst) (rec' path i p dst)) (path : Path) (v : Val)
    (dst : Bytes) : Q (appendSyncMapKeyV W o rec path v dst) (appendSyncMapKeyV W o rec' path v dst) := by
  cases v with
  | iface t v =>
    simp only [appendSyncMapKeyV]
    split
    · exact C.refl _
    · split
      · exact C.refl _
      · exact C.seq (C.appendJSONV h _ _ _) (fun b => C.refl _)
  | _ => exact C.refl _

theorem Cong.specialV (C : Cong Q) {rec rec' : RecV} (h : ∀ path i p dst, Q (rec path i p dst) (rec' path i p dst)) (path : Path) (s : Special)
    (v : Val) (dst : Bytes) : Q (encodeSpecialV W o rec path s v dst) (encodeSpecialV W o rec' path s v dst) := by
  cases s with
  | syncMap =>
    cases v with
    | smap kvs => exact C.entries (fun n a dst => C.syncKeyV h _ _ _) (fun n a dst => C.appendJSONV h _ _ _) _ _
    | _ => exact C.refl _
  | duration =>
    cases v with
    | int x => cases x <;> exact C.refl _
    | _ => exact C.refl _
  | _ => cases v <;> exact C.refl _

theorem Cong.execV (C : Cong Q)
    (hmeth : ∀ path m t hp v dst, Q (encodeMarshalerV W M o path m t hp v dst) (encodeMarshalerV W M' o path m t hp v dst))
    {rec rec' : RecV} (h : ∀ path i p dst, Q (rec path i p dst) (rec' path i p dst)) (path : Path) (i : Instr)
    (v : Val) (dst : Bytes) : Q (execV W M o rec path i v dst) (execV W M' o rec' path i v dst) := by
  have harr : ∀ ins isba vs dst, Q (encodeArrayV o rec path ins isba vs dst) (encodeArrayV o rec' path ins isba vs dst) := by
    intro ins isba vs dst
    simp only [encodeArrayV]
    split
    · exact C.refl _
    · exact C.arrayLV h _ _ _
  cases i with
  | goType s => exact C.specialV h _ _ _ _
  | marshaler m t hp => exact hmeth _ _ _ _ _ _
  | bool => exact C.refl _
  | int => exact C.refl _
  | float => exact C.refl _
  | string => exact C.refl _
  | quotedString => exact C.refl _
  | byteSlice => exact C.refl _
  | unsupported => exact C.refl _
  | quoted i => simp only [Proofs.execV]; exact C.seq (h _ _ _ _) (fun b => C.refl _)
  | nilText i =>
    simp only [Proofs.execV]
    split
    · exact C.refl _
    · exact h _ _ _ _
  | inline i => exact h _ _ _ _
  | iface =>
    simp only [Proofs.execV]
    split
    · exact C.refl _
    · exact C.appendJSONV h _ _ _
  | struct t ca =>
    simp only [Proofs.execV]
    split
    · exact C.refl _
    · split
      · exact C.refl _
      · rw [structLoopV_G, structLoopV_G]; exact C.structG h _ _ _ _
  | map t ki vi =>
    simp only [Proofs.execV]
    split
    · exact C.refl _
    · split
      · exact C.refl _
      · exact C.entries (fun n a dst => h _ _ _ _) (fun n a dst => h _ _ _ _) _ _
    · exact C.refl _
  | slice i es =>
    simp only [Proofs.execV]
    split
    · exact C.refl _
    · split
      · exact C.refl _
      · exact harr _ _ _ _
    · exact C.refl _
  | array i es n isba =>
    simp only [Proofs.execV]
    split
    · exact harr _ _ _ _
    · exact C.refl _
  | ptr i =>
    simp only [Proofs.execV]
    split
    · exact C.refl _
    · exact h _ _ _ _
    · exact C.refl _

theorem Cong.runV (C : Cong Q)
    (hmeth : ∀ path m t hp v dst, Q (encodeMarshalerV W M o path m t hp v dst) (encodeMarshalerV W M' o path m t hp v dst)) :
    ∀ (n : Nat) (path : Path) (i : Instr) (v : Val) (dst : Bytes), Q (runV W M o n path i v dst) (runV W M' o n path i v dst)
  | 0, _, _, _, _ => C.refl _
  | n + 1, path, i, p, dst => C.execV hmeth (Cong.runV C hmeth n) path i p dst

/-- More fuel only helps. -/
def Less (r r' : Res) : Prop := r = .nofuel ∨ r = r'

theorem less_cong : Cong Less where
  refl r := .inr rfl
  bind := by
    rintro r r' h k k' hk g
    rcases h with rfl | rfl
    · exact .inl rfl
    · cases r <;> first | exact hk _ | exact .inr rfl

theorem run_less : ∀ (n : Nat) (path : Path) (i : Instr) (p : Loc) (dst : Bytes),
    Less (run W H o n path i p dst) (run W H o (n + 1) path i p dst)
  | 0, _, _, _, _ => .inl rfl
  | n + 1, path, i, p, dst => less_cong.exec rfl (fun _ _ _ _ _ _ => .inr rfl) (run_less n) path i p dst

theorem runV_less : ∀ (n : Nat) (path : Path) (i : Instr) (v : Val) (dst : Bytes),
    Less (runV W M o n path i v dst) (runV W M o (n + 1) path i v dst)
  | 0, _, _, _, _ => .inl rfl
  | n + 1, path, i, p, dst => less_cong.execV (fun _ _ _ _ _ _ => .inr rfl) (runV_less n) path i p dst

theorem run_mono {n m : Nat} (h : n ≤ m) {path : Path} {i : Instr} {p : Loc} {dst : Bytes}
    (hr : run W H o n path i p dst ≠ .nofuel) : run W H o m path i p dst = run W H o n path i p dst := by
  induction h with
  | refl => rfl
  | @step m _ ih =>
    rcases run_less (W := W) (H := H) (o := o) m path i p dst with h | h
    · rw [ih] at h; exact absurd h hr
    · rw [← h, ih]

theorem runV_mono {n m : Nat} (h : n ≤ m) {path : Path} {i : Instr} {v : Val} {dst : Bytes}
    (hr : runV W M o n path i v dst ≠ .nofuel) : runV W M o m path i v dst = runV W M o n path i v dst := by
  induction h with
  | refl => rfl
  | @step m _ ih =>
    rcases runV_less (W := W) (M := M) (o := o) m path i v dst with h | h
    · rw [ih] at h; exact absurd h hr
    · rw [← h, ih]

end Jettison.Proofs
