import Verif.Proofs.LocalT
import Verif.Model.Api

/-! # Encoding does not depend on other types, nor on other memory -/

namespace Jettison.Proofs
open Jettison Jettison.Model Jettison.Spec

/-- Nothing, or the same. -/
def OLe {α : Type} (x y : Option α) : Prop := x = none ∨ x = y

/-- A misread, or the same. -/
def BLe (r r' : Res) : Prop := r = .bad ∨ r = r'

theorem BLe.rfl {r : Res} : BLe r r := .inr (Eq.refl _)

theorem BLe.seq {r r' : Res} {k k' : Bytes → Res} : BLe r r' → (∀ b, r = .ok b → BLe (k b) (k' b)) →
    BLe (match r with | .ok b => k b | r => r) (match r' with | .ok b => k' b | r => r) := by
  intro h hk
  rcases h with rfl | rfl
  · exact .inl (Eq.refl _)
  · cases r with
    | ok b => exact hk b (Eq.refl _)
    | _ => exact .rfl

theorem BLe.read {α : Type} {x y : Option α} {f f' : α → Res} (h : OLe x y) (hf : ∀ a, x = some a → BLe (f a) (f' a)) :
    BLe (withRead x f) (withRead y f') := by
  rcases h with rfl | rfl
  · exact .inl (Eq.refl _)
  · cases x with
    | none => exact .rfl
    | some a => exact hf a (Eq.refl _)

section Mem
variable {m m' : Mem} (hs : ∀ a c, m' a = some c → m a = some c)
include hs

theorem at_ole (p : Loc) : OLe (m'.at p) (m.at p) := by
  cases p with
  | tmp w => exact .inr rfl
  | heap a =>
    simp only [Mem.at]
    split
    · exact .inr rfl
    · cases h : m' a with
      | none => exact .inl rfl
      | some c => exact .inr (hs a c h).symm

theorem word_ole (p : Loc) : OLe (readWord m' p) (readWord m p) := by
  unfold readWord; rcases at_ole hs p with h | h <;> rw [h] <;> first | exact .inl rfl | exact .inr rfl
theorem nil_ole (p : Loc) : OLe (firstWordNil m' p) (firstWordNil m p) := by
  unfold firstWordNil; rcases at_ole hs p with h | h <;> rw [h] <;> first | exact .inl rfl | exact .inr rfl
theorem bool_ole (p : Loc) : OLe (readBool m' p) (readBool m p) := by
  unfold readBool; rcases at_ole hs p with h | h <;> rw [h] <;> first | exact .inl rfl | exact .inr rfl
theorem int_ole (k : IntK) (p : Loc) : OLe (readInt m' k p) (readInt m k p) := by
  unfold readInt; rcases at_ole hs p with h | h <;> rw [h] <;> first | exact .inl rfl | exact .inr rfl
theorem float_ole (w : FWidth) (p : Loc) : OLe (readFloat m' w p) (readFloat m w p) := by
  unfold readFloat; rcases at_ole hs p with h | h <;> rw [h] <;> first | exact .inl rfl | exact .inr rfl
theorem str_ole (p : Loc) : OLe (readStr m' p) (readStr m p) := by
  unfold readStr; rcases at_ole hs p with h | h <;> rw [h] <;> first | exact .inl rfl | exact .inr rfl
theorem slice_ole (p : Loc) : OLe (readSlice m' p) (readSlice m p) := by
  unfold readSlice; rcases at_ole hs p with h | h <;> rw [h] <;> first | exact .inl rfl | exact .inr rfl
theorem eface_ole (p : Loc) : OLe (readEface m' p) (readEface m p) := by
  unfold readEface; rcases at_ole hs p with h | h <;> rw [h] <;> first | exact .inl rfl | exact .inr rfl
theorem iface_ole (p : Loc) : OLe (readIface m' p) (readIface m p) := by
  unfold readIface; rcases at_ole hs p with h | h <;> rw [h] <;> first | exact .inl rfl | exact .inr rfl
theorem time_ole (p : Loc) : OLe (readTime m' p) (readTime m p) := by
  unfold readTime; rcases at_ole hs p with h | h <;> rw [h] <;> first | exact .inl rfl | exact .inr rfl
theorem smap_ole (p : Loc) : OLe (readSyncMap m' p) (readSyncMap m p) := by
  unfold readSyncMap; rcases at_ole hs p with h | h <;> rw [h] <;> first | exact .inl rfl | exact .inr rfl
theorem map_ole (a : Addr) : OLe (readMap m' a) (readMap m a) := by
  unfold readMap; rcases at_ole hs (.heap a) with h | h <;> rw [h] <;> first | exact .inl rfl | exact .inr rfl

omit hs in
theorem ole_map {α β : Type} {x y : Option α} (h : OLe x y) (f : α → β) : OLe (x.map f) (y.map f) := by
  rcases h with rfl | rfl
  · exact .inl rfl
  · exact .inr rfl

theorem bytes_ole : ∀ (n : Nat) (p : Loc), OLe (readBytesAt m' n p) (readBytesAt m n p)
  | 0, _ => .inr rfl
  | n + 1, p => by
    have ih := bytes_ole n (p.add 1)
    simp only [readBytesAt]
    rcases at_ole hs p with h | h <;> rw [h]
    · exact .inl rfl
    · split
      · exact ole_map ih _
      · exact .inl rfl

theorem byteSlice_ole (p : Loc) : OLe (readByteSlice m' p) (readByteSlice m p) := by
  simp only [readByteSlice]
  rcases slice_ole hs p with h | h <;> rw [h]
  · exact .inl rfl
  · split
    · split
      · exact .inr rfl
      · exact ole_map (bytes_ole hs _ _) _
    · exact .inl rfl

theorem mapLen_ole (a : Addr) : OLe (mapLen m' a) (mapLen m a) := by
  simp only [mapLen]
  split
  · exact .inr rfl
  · exact ole_map (map_ole hs a) _

theorem empty_ole (f : EmptyFn) (p : Loc) : OLe (f.eval m' p) (f.eval m p) := by
  cases f with
  | bool => exact ole_map (bool_ole hs p) _
  | string => exact ole_map (str_ole hs p) _
  | int k => exact ole_map (int_ole hs k p) _
  | float w => exact ole_map (float_ole hs w p) _
  | map =>
    simp only [EmptyFn.eval]
    rcases word_ole hs p with h | h <;> rw [h]
    · exact .inl rfl
    · split
      · exact ole_map (mapLen_ole hs _) _
      · exact .inl rfl
  | ptr => exact ole_map (word_ole hs p) _
  | iface => exact nil_ole hs p
  | slice => exact ole_map (slice_ole hs p) _
  | always => exact .inr rfl
  | never => exact .inr rfl

theorem walk_ole : ∀ (l : List Seq) (p : Loc), OLe (walk m' l p) (walk m l p)
  | [], _ => .inr rfl
  | s :: ss, p => by
    simp only [walk]
    split
    · rcases word_ole hs (p.add s.offset) with h | h <;> rw [h]
      · exact .inl rfl
      · split
        · exact .inl rfl
        · split
          · exact .inr rfl
          · exact walk_ole ss _
    · exact walk_ole ss _

theorem fieldLoc_ole (o : EncOpts) (f : FInstr) (p : Loc) : OLe (fieldLoc m' o f p) (fieldLoc m o f p) := by
  simp only [fieldLoc]
  split
  · exact .inr rfl
  · rcases walk_ole hs f.fld.embedSeq p with h | h <;> rw [h]
    · exact .inl rfl
    · split
      · exact .inl rfl
      · exact .inr rfl
      · rename_i fp _
        have h1 : OLe (if f.omitNil = true then firstWordNil m' fp else some false) (if f.omitNil = true then firstWordNil m fp else some false) := by
          split
          · exact nil_ole hs fp
          · exact .inr rfl
        rcases h1 with h | h <;> rw [h]
        · exact .inl rfl
        · split
          · exact .inl rfl
          · exact .inr rfl
          · cases f.empty with
            | none => exact .inr rfl
            | some e =>
              simp only
              rcases empty_ole hs e fp with h | h <;> rw [h]
              · exact .inl rfl
              · exact .inr rfl
end Mem

/-! ## Loops -/

theorem unsorted_ble {α : Type} {kf vf kf' vf' : Nat → α → Bytes → Res} : ∀ (l : List α) (n : Nat) (dst : Bytes),
    (∀ n, ∀ a ∈ l, ∀ dst, BLe (kf n a dst) (kf' n a dst)) → (∀ n, ∀ a ∈ l, ∀ dst, BLe (vf n a dst) (vf' n a dst)) →
    BLe (unsortedLoop kf vf n l dst) (unsortedLoop kf' vf' n l dst)
  | [], _, _, _, _ => .rfl
  | a :: l, n, dst, hk, hv => by
    simp only [unsortedLoop]
    refine .seq (hk n a (by simp) _) fun d _ => ?_
    exact .seq (hv n a (by simp) _) fun b _ =>
      unsorted_ble l _ _ (fun n x hx => hk n x (by simp [hx])) (fun n x hx => hv n x (by simp [hx]))

theorem sorted_ble {α : Type} {kf vf kf' vf' : Nat → α → Bytes → Res} : ∀ (l : List α) (n : Nat) (buf : Bytes) (mel : List (Bytes × Bytes)),
    (∀ n, ∀ a ∈ l, ∀ dst, BLe (kf n a dst) (kf' n a dst)) → (∀ n, ∀ a ∈ l, ∀ dst, BLe (vf n a dst) (vf' n a dst)) →
    sortedLoop kf vf n l buf mel = .stop .bad ∨ sortedLoop kf vf n l buf mel = sortedLoop kf' vf' n l buf mel
  | [], _, _, _, _, _ => .inr rfl
  | a :: l, n, buf, mel, hk, hv => by
    simp only [sortedLoop]
    rcases hk n a (by simp) buf with h | h <;> rw [h]
    · exact .inl rfl
    · split
      · split
        · exact .inr rfl
        · rename_i b _ _
          rcases hv n a (by simp) (b ++ b! ":") with h | h <;> rw [h]
          · exact .inl rfl
          · split
            · split
              · exact .inr rfl
              · exact sorted_ble l _ _ _ (fun n x hx => hk n x (by simp [hx])) (fun n x hx => hv n x (by simp [hx]))
            · exact .inr rfl
      · exact .inr rfl

theorem entries_ble {α : Type} {W W' : World} (hW : @World.sort W' = @World.sort W) {o : EncOpts} {kf vf kf' vf' : Nat → α → Bytes → Res} (l : List α) (dst : Bytes)
    (hk : ∀ n, ∀ a ∈ l, ∀ dst, BLe (kf n a dst) (kf' n a dst)) (hv : ∀ n, ∀ a ∈ l, ∀ dst, BLe (vf n a dst) (vf' n a dst)) :
    BLe (encodeEntries W' o kf vf l dst) (encodeEntries W o kf' vf' l dst) := by
  simp only [encodeEntries]
  refine .seq ?_ fun b _ => .rfl
  split
  · exact unsorted_ble l 0 _ hk hv
  · simp only [encodeSorted, hW]
    rcases sorted_ble l 0 [] [] hk hv with h | h <;> rw [h]
    · exact .inl rfl
    · exact .rfl

theorem struct_ble {H H' : Heap} (hs : ∀ a c, H'.mem a = some c → H.mem a = some c) {o : EncOpts} {rec rec' : Rec} {path : Path} {p : Loc} :
    ∀ (l : List FInstr) (i : Nat) (first : Bool) (dst : Bytes),
    (∀ f ∈ l, ∀ path p dst, BLe (rec' path f.instr p dst) (rec path f.instr p dst)) →
    BLe (structLoop H' o rec' path p i l first dst) (structLoop H o rec path p i l first dst)
  | [], _, _, _, _ => .rfl
  | f :: l, i, first, dst, hr => by
    have ih := fun i first dst => struct_ble hs (o := o) (path := path) (p := p) l i first dst (fun x hx => hr x (by simp [hx]))
    simp only [structLoop]
    rcases fieldLoc_ole hs o f p with h | h <;> rw [h]
    · exact .inl rfl
    · split
      · exact .rfl
      · exact ih _ _ _
      · refine .seq (hr f (by simp) _ _ _) fun b _ => ?_
        split
        · exact ih _ _ _
        · exact ih _ _ _

theorem array_ble {rec rec' : Rec} {path : Path} {ins : Instr} {es : Nat} {p : Loc}
    (hr : ∀ path p dst, BLe (rec' path ins p dst) (rec path ins p dst)) : ∀ (n i : Nat) (dst : Bytes),
    BLe (arrayLoop rec' path ins es p i n dst) (arrayLoop rec path ins es p i n dst)
  | 0, _, _ => .rfl
  | n + 1, i, dst => by
    simp only [arrayLoop]
    exact .seq (hr _ _ _) fun b _ => array_ble hr n _ _

/-! ## Instructions -/

section Exec
variable {S : TId → Prop} {W W' : World} {H H' : Heap}

theorem visit_sub {α : Type} {path : Path} {es : List α} {a : α} (h : a ∈ W.visit path es) : a ∈ es := by
  simp only [World.visit, List.mem_filterMap] at h
  obtain ⟨i, -, h⟩ := h
  exact List.mem_of_getElem? h

theorem Family.shares (F : Family W.E W.ptrTo S) (A : InCommon S W W') : Shares S W.E W'.E :=
  ⟨A.types, F.parts, F.fields⟩

theorem json_ble (F : Family W.E W.ptrTo S) (A : InCommon S W W') {rec rec' : Rec}
    (hr : ∀ path i, InsIn S i → ∀ p dst, BLe (rec' path i p dst) (rec path i p dst)) (path : Path) {v : Eface} (hv : EfaceIn S v)
    (dst : Bytes) : BLe (appendJSON W' rec' path v dst) (appendJSON W rec path v dst) := by
  cases v with
  | none => exact .rfl
  | some x =>
    obtain ⟨t, w⟩ := x
    have hf : W'.tfuel = W.tfuel := by rw [A.rest]
    have h := (Family.shares F A).instrFor W.tfuel (hv t w rfl)
    simp only [appendJSON, hf, h.1]
    split
    · exact .rfl
    · rename_i i hi; exact hr _ _ (h.2 i hi) _ _

theorem key_ble (F : Family W.E W.ptrTo S) (A : InCommon S W W') (I : Inner S H H') {o : EncOpts} {rec rec' : Rec}
    (hr : ∀ path i, InsIn S i → ∀ p dst, BLe (rec' path i p dst) (rec path i p dst)) (path : Path) {v : Eface} (hv : EfaceIn S v)
    (dst : Bytes) : BLe (appendSyncMapKey W' H' o rec' path v dst) (appendSyncMapKey W H o rec path v dst) := by
  cases v with
  | none => exact .rfl
  | some x =>
    obtain ⟨t, w⟩ := x
    simp only [appendSyncMapKey, A.types t (hv t w rfl)]
    split
    · exact .rfl
    · split
      · exact .read (str_ole I.sub _) fun _ _ => .rfl
      · exact .seq (json_ble F A hr path hv _) fun _ _ => .rfl

theorem smapIn (I : Inner S H H') {p : Loc} {es : List (Eface × Eface)} (h : readSyncMap H'.mem p = some es) :
    ∀ e ∈ es, EfaceIn S e.1 ∧ EfaceIn S e.2 := by
  unfold readSyncMap at h
  split at h
  · rename_i es' hp
    cases h
    cases p with
    | tmp w => simp [Mem.at] at hp
    | heap a =>
      simp only [Mem.at] at hp
      split at hp
      · cases hp
      · exact I.dyn a _ hp
  · cases h

theorem efaceIn_of (I : Inner S H H') {p : Loc} {x : Eface} (h : readEface H'.mem p = some x) : EfaceIn S x := by
  unfold readEface at h
  split at h
  · rename_i v hp
    cases h
    cases p with
    | tmp w => simp [Mem.at] at hp
    | heap a =>
      simp only [Mem.at] at hp
      split at hp
      · cases hp
      · exact I.dyn a _ hp
  · cases h; intro t w h; cases h
  · cases h

theorem ifaceIn_of (I : Inner S H H') {p : Loc} {x : Eface} (h : readIface H'.mem p = some x) : EfaceIn S x := by
  unfold readIface at h
  split at h
  · rename_i v hp
    cases h
    cases p with
    | tmp w => simp [Mem.at] at hp
    | heap a =>
      simp only [Mem.at] at hp
      split at hp
      · cases hp
      · exact I.dyn a _ hp
  · cases h

theorem syncMap_ble (F : Family W.E W.ptrTo S) (A : InCommon S W W') (I : Inner S H H') {o : EncOpts} {rec rec' : Rec}
    (hr : ∀ path i, InsIn S i → ∀ p dst, BLe (rec' path i p dst) (rec path i p dst)) (path : Path) (p : Loc)
    (dst : Bytes) : BLe (encodeSyncMap W' H' o rec' path p dst) (encodeSyncMap W H o rec path p dst) := by
  simp only [encodeSyncMap]
  refine .read (smap_ole I.sub p) fun es hes => ?_
  have hin := smapIn I hes
  have hv : W'.visit path es = W.visit path es := by simp only [World.visit]; rw [A.rest]
  rw [hv]
  refine entries_ble (by rw [A.rest]) _ _ (fun n e he dst => ?_) (fun n e he dst => ?_)
  · exact key_ble F A I hr _ (hin e (visit_sub he)).1 _
  · exact json_ble F A hr _ (hin e (visit_sub he)).2 _

theorem receiver_ole (A : InCommon S W W') (I : Inner S H H') {t : TId} (ht : S t) (hp : Bool) (p : Loc) :
    OLe (receiver W' H'.mem t hp p) (receiver W H.mem t hp p) ∧
      ∀ rt w, receiver W' H'.mem t hp p = some (some (rt, w)) → S rt := by
  simp only [receiver, A.types t ht]
  split
  · rename_i n hn
    refine ⟨?_, ?_⟩
    · split
      · exact ole_map (eface_ole I.sub p) _
      · exact ole_map (iface_ole I.sub p) _
    · intro rt w h
      rw [Option.map_eq_some_iff] at h
      obtain ⟨x, hx, h⟩ := h
      rw [Option.map_eq_some_iff] at h
      obtain ⟨⟨t', w'⟩, rfl, h⟩ := h
      simp only [Prod.mk.injEq] at h
      obtain ⟨rfl, rfl⟩ := h
      split at hx
      · exact efaceIn_of I hx t' w' rfl
      · exact ifaceIn_of I hx t' w' rfl
  · split
    · refine ⟨ole_map (word_ole I.sub p) _, ?_⟩
      intro rt w h
      rw [Option.map_eq_some_iff] at h
      obtain ⟨a, -, h⟩ := h
      cases h; exact ht
    · refine ⟨.inr rfl, ?_⟩
      intro rt w h
      cases h; exact ht

theorem callMeth_alike (A : InCommon S W W') (o : EncOpts) (m : MethKind) (t : TId) (call : Option Ctx → Bytes → MethRes) (dst : Bytes) :
    callMeth W' o m t call dst = callMeth W o m t call dst := by
  have e : W'.jsonValid = W.jsonValid := by rw [A.rest]
  cases m <;> simp only [callMeth, relayJSON, e]

theorem invoke_ble (A : InCommon S W W') (I : Inner S H H') {o : EncOpts} {path : Path} {m : MethKind} {t : TId} (ht : S t) (hp : Bool)
    (p : Loc) (dst : Bytes) : BLe (invokeMeth W' H' o path m t hp p dst) (invokeMeth W H o path m t hp p dst) := by
  have hr := receiver_ole A I ht hp p
  simp only [invokeMeth]
  refine .read hr.1 fun r h => ?_
  cases r with
  | none => exact .rfl
  | some x =>
    obtain ⟨rt, w⟩ := x
    have e : H'.meth path m = H'.meth path m := rfl
    simp only [callMeth_alike A]
    have : (fun a b => H'.meth path m a rt w b) = (fun a b => H.meth path m a rt w b) :=
      funext fun a => funext fun b => I.meth _ _ _ _ _ _ (hr.2 rt w h)
    rw [this]
    exact .rfl

theorem marshaler_ble (F : Family W.E W.ptrTo S) (A : InCommon S W W') (I : Inner S H H') {o : EncOpts} {path : Path} {m : MethKind} {t : TId}
    (ht : S t) (hp : Bool) (p : Loc) (dst : Bytes) :
    BLe (encodeMarshaler W' H' o path m t hp p dst) (encodeMarshaler W H o path m t hp p dst) := by
  simp only [encodeMarshaler, A.types t ht, A.ptrTo t ht]
  split
  · split
    · refine .read (nil_ole I.sub p) fun b _ => ?_
      split
      · exact .rfl
      · exact invoke_ble A I ht hp p dst
    · exact invoke_ble A I ht hp p dst
  · split
    · exact .rfl
    · exact invoke_ble A I (F.ptrTo t ht) hp p dst

theorem exec_ble (F : Family W.E W.ptrTo S) (A : InCommon S W W') (I : Inner S H H') {o : EncOpts} {rec rec' : Rec}
    (hr : ∀ path i, InsIn S i → ∀ p dst, BLe (rec' path i p dst) (rec path i p dst)) (path : Path) {i : Instr} (hi : InsIn S i)
    (p : Loc) (dst : Bytes) : BLe (exec W' H' o rec' path i p dst) (exec W H o rec path i p dst) := by
  have hs := I.sub
  cases hi with
  | goType =>
    rename_i s
    simp only [exec]
    cases s with
    | syncMap => exact syncMap_ble F A I hr path p dst
    | time => 
      simp only [encodeSpecial, show W'.appendFormat = W.appendFormat by rw [A.rest]]
      exact .read (time_ole hs p) fun _ _ => .rfl
    | duration =>
      simp only [encodeSpecial, show W'.fmt = W.fmt by rw [A.rest], show W'.df = W.df by rw [A.rest]]
      exact .read (int_ole hs _ p) fun _ _ => .rfl
    | number => exact .read (str_ole hs p) fun _ _ => .rfl
    | rawMessage => exact .read (byteSlice_ole hs p) fun _ _ => .rfl
  | marshaler ht => exact marshaler_ble F A I ht _ p dst
  | bool => exact .read (bool_ole hs p) fun _ _ => .rfl
  | int => exact .read (int_ole hs _ p) fun _ _ => .rfl
  | float =>
    simp only [exec, show W'.fmt = W.fmt by rw [A.rest]]
    exact .read (float_ole hs _ p) fun _ _ => .rfl
  | string => exact .read (str_ole hs p) fun _ _ => .rfl
  | quotedString => exact .read (str_ole hs p) fun _ _ => .rfl
  | quoted h => exact .seq (hr _ _ h _ _) fun _ _ => .rfl
  | nilText h =>
    refine .read (word_ole hs p) fun a _ => ?_
    split
    · exact .rfl
    · exact hr _ _ h _ _
  | inline h =>
    simp only [exec]
    cases p with
    | heap w => exact hr _ _ h _ _
    | tmp w => exact .rfl
  | iface =>
    refine .read (eface_ole hs p) fun v hv => ?_
    have := efaceIn_of I hv
    split
    · exact .rfl
    · exact json_ble F A hr path this dst
  | struct ht =>
    rename_i t ca
    have h := (Family.shares F A).fieldsInstr W.U W.grow W.sort W.tfuel ht ca
    simp only [exec, A.types t ht, show W'.U = W.U by rw [A.rest], show W'.grow = W.grow by rw [A.rest],
      show @World.sort W' = @World.sort W by rw [A.rest], show W'.tfuel = W.tfuel by rw [A.rest], h.1]
    split
    · exact .rfl
    · split
      · exact .rfl
      · rename_i l hl
        exact struct_ble hs l 0 true dst fun f hf path p dst => hr _ _ (h.2 l hl f hf) _ _
  | map hk hv =>
    simp only [exec, encodeMap]
    refine .read (word_ole hs p) fun a _ => ?_
    split
    · exact .rfl
    · refine .read (map_ole hs a) fun es _ => ?_
      split
      · exact .rfl
      · have hv' : W'.visit path es = W.visit path es := by simp only [World.visit]; rw [A.rest]
        rw [hv']
        exact entries_ble (by rw [A.rest]) _ _ (fun n e _ dst => hr _ _ hk _ _) (fun n e _ dst => hr _ _ hv _ _)
  | byteSlice => exact .read (byteSlice_ole hs p) fun _ _ => .rfl
  | slice h =>
    refine .read (slice_ole hs p) fun x _ => ?_
    obtain ⟨d, n⟩ := x
    simp only
    split
    · exact .rfl
    · split
      · exact .rfl
      · simp only [encodeArray, Bool.false_and]
        exact array_ble (fun _ _ _ => hr _ _ h _ _) _ _ _
  | array h =>
    simp only [exec, encodeArray]
    split
    · exact .read (bytes_ole hs _ p) fun _ _ => .rfl
    · exact array_ble (fun _ _ _ => hr _ _ h _ _) _ _ _
  | ptr h =>
    refine .read (word_ole hs p) fun a _ => ?_
    split
    · exact hr _ _ h _ _
    · exact .rfl
  | unsupported => exact .rfl

/-- A run in a part of the memory, with the types of the set, is a misread or the run in all of it. -/
theorem run_ble (F : Family W.E W.ptrTo S) (A : InCommon S W W') (I : Inner S H H') (o : EncOpts) : ∀ (n : Nat) (path : Path) (i : Instr),
    InsIn S i → ∀ (p : Loc) (dst : Bytes), BLe (run W' H' o n path i p dst) (run W H o n path i p dst)
  | 0, _, _, _, _, _ => .rfl
  | n + 1, path, _, hi, p, dst => exec_ble F A I (run_ble F A I o n) path hi p dst

end Exec

end Jettison.Proofs
