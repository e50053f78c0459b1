import Verif.Proofs.LocalV
import Verif.Spec.Writes
import Verif.Spec.First

/-! # What is written does not depend on other types -/

namespace Jettison.Proofs
open Jettison Jettison.Model Jettison.Spec

/-- The two programs have the types of the family and their methods in common. -/
structure Sharing (S : TId → Prop) (W W' : World) (M M' : MethV) : Prop where
  types : Shares S W.E W'.E
  ptrTo : ∀ t, S t → W'.ptrTo t = W.ptrTo t
  ptrIn : ∀ t, S t → S (W.ptrTo t)
  rest : W' = { W with E := W'.E, ptrTo := W'.ptrTo }
  meth : ∀ path m ctx t v dst, S t → M' path m ctx t v dst = M path m ctx t v dst

variable {S : TId → Prop} {W W' : World} {M M' : MethV} {o : EncOpts}

theorem Sharing.symm (A : Sharing S W W' M M') : Sharing S W' W M' M where
  types := A.types.symm
  ptrTo t ht := (A.ptrTo t ht).symm
  ptrIn t ht := by rw [A.ptrTo t ht]; exact A.ptrIn t ht
  rest := by rw [A.rest]
  meth path m ctx t v dst ht := (A.meth path m ctx t v dst ht).symm

section
variable (A : Sharing S W W' M M')
include A

theorem Sharing.fmt : W'.fmt = W.fmt := by rw [A.rest]
theorem Sharing.df : W'.df = W.df := by rw [A.rest]
theorem Sharing.format : W'.appendFormat = W.appendFormat := by rw [A.rest]
theorem Sharing.tab : W'.U = W.U := by rw [A.rest]
theorem Sharing.same {t : TId} (ht : S t) : W'.E t = W.E t := A.types.same t ht

theorem Sharing.byKind {t : TId} (ht : S t) {ca : Bool} (h : ByKind W.E t ca) : ByKind W'.E t ca := by
  have e := A.same ht
  exact ⟨by rw [e]; exact h.special, by rw [e]; exact h.meths, by rw [e]; exact h.pmeths⟩

theorem Sharing.isPtr {t : TId} (ht : S t) : IsPtr W'.E t ↔ IsPtr W.E t := by unfold IsPtr; rw [A.same ht]
theorem Sharing.isIface {t : TId} (ht : S t) : IsIface W'.E t ↔ IsIface W.E t := by unfold IsIface; rw [A.same ht]
theorem Sharing.keyType {t : TId} (ht : S t) : KeyType W'.E t ↔ KeyType W.E t := by unfold KeyType; rw [A.same ht]
theorem Sharing.byteElem {t : TId} (ht : S t) : ByteElem W'.E t ↔ ByteElem W.E t := by unfold ByteElem; rw [A.same ht]

theorem Sharing.picks {t : TId} (ht : S t) {ca : Bool} {m : MethKind} (h : Picks W.E t ca m) : Picks W'.E t ca m := by
  unfold Picks Available at h ⊢; simp only [A.isPtr ht, A.same ht]; exact h

theorem Sharing.basicOrPtr {t : TId} (ht : S t) : BasicOrPtr W'.E t ↔ BasicOrPtr W.E t := by
  unfold BasicOrPtr
  rw [A.same ht]
  constructor
  · rintro (h | ⟨e, h1, h2, h3⟩)
    · exact .inl h
    · exact .inr ⟨e, h1, h2, by rw [← A.same (A.types.parts _ _ ht (.ptr h1))]; exact h3⟩
  · rintro (h | ⟨e, h1, h2, h3⟩)
    · exact .inl h
    · exact .inr ⟨e, h1, h2, by rw [A.same (A.types.parts _ _ ht (.ptr h1))]; exact h3⟩

theorem Sharing.receives {t : TId} (ht : S t) {m : MethKind} {v x : Val} {rt u : TId} (hv : MadeOf S v)
    (h : Receives W.E W.ptrTo t m v rt x u) : Receives W'.E W'.ptrTo t m v rt x u ∧ S rt := by
  cases h with
  | own h1 h2 h3 => exact ⟨.own (by rw [A.same ht]; exact h1) (by rw [A.isIface ht]; exact h2) (by rw [A.isPtr ht]; exact h3), ht⟩
  | dyn h1 h2 =>
    cases hv with
    | iface hd _ => exact ⟨.dyn (by rw [A.same ht]; exact h1) (by rw [A.isIface ht]; exact h2), hd⟩
  | addr h1 h2 =>
    rw [← A.ptrTo t ht]
    exact ⟨.addr (by rw [A.same ht]; exact h1) (by rw [A.same ht]; exact h2), by rw [A.ptrTo t ht]; exact A.ptrIn t ht⟩

theorem Sharing.methText {rt : TId} (ht : S rt) {x : Val} {m : MethKind} {b : Bytes} (h : MethText M o rt x m b) : MethText M' o rt x m b := by
  cases h with
  | ctx h => exact .ctx (by rw [A.meth _ _ _ _ _ _ ht]; exact h)
  | app h => exact .app (by rw [A.meth _ _ _ _ _ _ ht]; exact h)
  | json h h1 h2 => exact .json (by rw [A.meth _ _ _ _ _ _ ht]; exact h) h1 h2
  | text h => exact .text (by rw [A.meth _ _ _ _ _ _ ht]; exact h)

theorem Sharing.timeText {x : GoTime} {b : Bytes} (h : TimeText W o x b) : TimeText W' o x b := by
  cases h with
  | unix h1 h2 => exact .unix h1 h2
  | rfc3339 h1 h2 h3 => exact .rfc3339 h1 h2 h3
  | nano h1 h2 h3 => exact .nano h1 h2 h3
  | layout h1 h2 => rw [← A.format]; exact .layout h1 h2

theorem Sharing.durationText {d : Int64} {b : Bytes} (h : DurationText W o d b) : DurationText W' o d b := by
  cases h with
  | str h1 h2 h3 => exact .str h1 h2 h3
  | neg h1 h2 h3 => exact .neg h1 h2 h3
  | ns h1 h2 => exact .ns h1 h2
  | us h1 h2 => exact .us h1 h2
  | ms h1 h2 => exact .ms h1 h2
  | sec h1 h2 => exact .sec h1 (by rw [A.fmt, A.df]; exact h2)
  | min h1 h2 => exact .min h1 (by rw [A.fmt, A.df]; exact h2)

theorem Sharing.members {t : TId} (ht : S t) {l : List MField} (h : MembersOf W.U.isLetter W.U.isDigit W.E t l) :
    MembersOf W'.U.isLetter W'.U.isDigit W'.E t l := by
  rw [A.tab]
  exact ⟨h.1, fun m => (h.2 m).trans (A.types.chosen ht).symm⟩

theorem Sharing.chosen_in {t : TId} (ht : S t) {m : MField} (h : ChosenField W.U.isLetter W.U.isDigit W.E t m) : S m.decl.typ := by
  obtain ⟨p, u, i, r, tagged, -, hp, -⟩ := h
  obtain ⟨p', q', hr, -, -⟩ := hp.reach
  obtain ⟨fs, hf, hi⟩ := hp.decl
  exact A.types.get (A.types.reaches_in ht hr) hf hi

theorem Sharing.nullDropped {m : MField} (hm : S m.decl.typ) {b : Bytes} : NullDropped W'.E m b ↔ NullDropped W.E m b := by
  unfold NullDropped HasMarshalJSON; rw [A.same hm]

end

theorem madeOf_slice {vs : List Val} (h : MadeOf S (.slice vs)) : ∀ v ∈ vs, MadeOf S v := by cases h; assumption
theorem madeOf_array {vs : List Val} (h : MadeOf S (.array vs)) : ∀ v ∈ vs, MadeOf S v := by cases h; assumption
theorem madeOf_struct {vs : List Val} (h : MadeOf S (.struct vs)) : ∀ v ∈ vs, MadeOf S v := by cases h; assumption
theorem madeOf_ptr {v : Val} (h : MadeOf S (.ptr v)) : MadeOf S v := by cases h; assumption
theorem madeOf_iface {t : TId} {v : Val} (h : MadeOf S (.iface t v)) : S t ∧ MadeOf S v := by cases h with | iface h1 h2 => exact ⟨h1, h2⟩
theorem madeOf_map {kvs : List (Val × Val)} (h : MadeOf S (.map kvs)) : ∀ kv ∈ kvs, MadeOf S kv.1 ∧ MadeOf S kv.2 := by
  cases h with | map h1 h2 => exact fun kv hk => ⟨h1 kv hk, h2 kv hk⟩
theorem madeOf_smap {kvs : List (Val × Val)} (h : MadeOf S (.smap kvs)) : ∀ kv ∈ kvs, MadeOf S kv.1 ∧ MadeOf S kv.2 := by
  cases h with | smap h1 h2 => exact fun kv hk => ⟨h1 kv hk, h2 kv hk⟩

theorem madeOf_field {v x : Val} {p : List Nat} (hv : MadeOf S v) (h : FieldAt v p x) : MadeOf S x := by
  induction h with
  | last h => exact madeOf_struct hv _ (List.mem_of_getElem? h)
  | embed h _ ih => exact ih (madeOf_struct hv _ (List.mem_of_getElem? h))
  | deref h _ ih => exact ih (madeOf_ptr (madeOf_struct hv _ (List.mem_of_getElem? h)))

theorem Sharing.writes (A : Sharing S W W' M M') {t : TId} {ca q : Bool} {v : Val} {b : Bytes} (h : Writes W M o t ca q v b) :
    S t → MadeOf S v → Writes W' M' o t ca q v b := by
  refine Spec.Writes.rec (motive_1 := fun t ca q v b _ => S t → MadeOf S v → Writes W' M' o t ca q v b)
    (motive_2 := fun k v b _ => S k → MadeOf S v → KeyWrites W' M' o k v b)
    (motive_3 := fun v b _ => MadeOf S v → SyncKeyWrites W' M' o v b)
    ?methNil ?meth ?time ?duration ?number0 ?number ?rawNil ?raw ?smap ?yes ?no ?int ?float ?str ?quoted ?quotedStr ?ptrNil ?ptr
    ?ifaceNil ?iface ?bytesNil ?bytes ?rawBytes ?sliceNil ?sliceNil0 ?slice ?byteArray ?array ?mapNil ?mapNil0 ?map ?struct
    ?kstr ?knil ?ktext ?kquoted ?sstr ?stext ?squoted h
  all_goals clear h t ca q v b
  case methNil =>
    intro t ca q m h1 h2 h3 h4 ht _
    exact .methNil (by rw [A.same ht]; exact h1) (A.picks ht h2) (by rw [A.same ht]; exact h3) (by rw [A.isPtr ht, A.isIface ht]; exact h4)
  case meth =>
    intro t ca q m v rt x u b h1 h2 h3 h4 ht hv
    obtain ⟨h3', hr⟩ := A.receives ht hv h3
    exact .meth (by rw [A.same ht]; exact h1) (A.picks ht h2) h3' (A.methText hr h4)
  case time => intro t ca q x b h1 h2 h3 ht _; exact .time (by rw [A.same ht]; exact h1) h2 (A.timeText h3)
  case duration => intro t ca q x b h1 h3 ht _; exact .duration (by rw [A.same ht]; exact h1) (A.durationText h3)
  case number0 => intro t ca q h1 ht _; exact .number0 (by rw [A.same ht]; exact h1)
  case number => intro t ca q s h1 h2 h3 ht _; exact .number (by rw [A.same ht]; exact h1) h2 h3
  case rawNil => intro t ca q h1 ht _; exact .rawNil (by rw [A.same ht]; exact h1)
  case raw => intro t ca q vs b c h1 h2 h3 ht _; exact .raw (by rw [A.same ht]; exact h1) h2 h3
  case smap =>
    intro t ca q kvs ms ms' h1 h2 h3 h4 h5 h6 ih1 ih2 ht hv
    have hm := madeOf_smap hv
    refine .smap (by rw [A.same ht]; exact h1) h2 (fun i kv m hk hi => ih1 i kv m hk hi (hm kv (List.mem_of_getElem? hk)).1) ?_ h5 h6
    intro i kv m d x hk hi hx
    have hd := (hm kv (List.mem_of_getElem? hk)).2
    rw [hx] at hd
    rw [A.same (madeOf_iface hd).1]
    exact ih2 i kv m d x hk hi hx (madeOf_iface hd).1 (madeOf_iface hd).2
  case yes => intro t ca h1 h2 ht _; exact .yes (A.byKind ht h1) (by rw [A.same ht]; exact h2)
  case no => intro t ca h1 h2 ht _; exact .no (A.byKind ht h1) (by rw [A.same ht]; exact h2)
  case int => intro t ca k x b h1 h2 h3 ht _; exact .int (A.byKind ht h1) (by rw [A.same ht]; exact h2) h3
  case float => intro t ca k x b h1 h2 h3 ht _; exact .float (A.byKind ht h1) (by rw [A.same ht]; exact h2) (by rw [A.fmt]; exact h3)
  case str => intro t ca s b h1 h2 h3 ht _; exact .str (A.byKind ht h1) (by rw [A.same ht]; exact h2) h3
  case quoted =>
    intro t ca v b h1 h2 h3 _ ih ht hv
    exact .quoted (A.byKind ht h1) (by rw [A.same ht]; exact h2) (by rw [A.same ht]; exact h3) (ih ht hv)
  case quotedStr => intro t ca s b h1 h2 h3 ht _; exact .quotedStr (A.byKind ht h1) (by rw [A.same ht]; exact h2) h3
  case ptrNil => intro t ca q e h1 h2 ht _; exact .ptrNil (A.byKind ht h1) (by rw [A.same ht]; exact h2)
  case ptr =>
    intro t ca q e v b h1 h2 _ ih ht hv
    exact .ptr (A.byKind ht h1) (by rw [A.same ht]; exact h2) (ih (A.types.parts _ _ ht (.ptr h2)) (madeOf_ptr hv))
  case ifaceNil => intro t ca k h1 h2 ht _; exact .ifaceNil (A.byKind ht h1) (by rw [A.same ht]; exact h2)
  case iface =>
    intro t ca k d x b h1 h2 _ ih ht hv
    have hd := madeOf_iface hv
    exact .iface (A.byKind ht h1) (by rw [A.same ht]; exact h2) (by rw [A.same hd.1]; exact ih hd.1 hd.2)
  case bytesNil =>
    intro t ca e h1 h2 h3 ht _
    exact .bytesNil (A.byKind ht h1) (by rw [A.same ht]; exact h2) ((A.byteElem (A.types.parts _ _ ht (.slice h2))).mpr h3)
  case bytes =>
    intro t ca e vs x b h1 h2 h3 h4 h5 h6 ht _
    exact .bytes (A.byKind ht h1) (by rw [A.same ht]; exact h2) ((A.byteElem (A.types.parts _ _ ht (.slice h2))).mpr h3) h4 h5 h6
  case rawBytes =>
    intro t ca e vs x b h1 h2 h3 h4 h5 h6 ht _
    exact .rawBytes (A.byKind ht h1) (by rw [A.same ht]; exact h2) ((A.byteElem (A.types.parts _ _ ht (.slice h2))).mpr h3) h4 h5 h6
  case sliceNil =>
    intro t ca e h1 h2 h3 h4 ht _
    exact .sliceNil (A.byKind ht h1) (by rw [A.same ht]; exact h2) (mt (A.byteElem (A.types.parts _ _ ht (.slice h2))).mp h3) h4
  case sliceNil0 =>
    intro t ca e h1 h2 h3 h4 ht _
    exact .sliceNil0 (A.byKind ht h1) (by rw [A.same ht]; exact h2) (mt (A.byteElem (A.types.parts _ _ ht (.slice h2))).mp h3) h4
  case slice =>
    intro t ca e vs bs h1 h2 h3 h4 _ ih ht hv
    have he := A.types.parts _ _ ht (.slice h2)
    exact .slice (A.byKind ht h1) (by rw [A.same ht]; exact h2) (mt (A.byteElem he).mp h3) h4
      fun i v b hi hb => ih i v b hi hb he (madeOf_slice hv v (List.mem_of_getElem? hi))
  case byteArray =>
    intro t ca n e vs x b h1 h2 h3 h4 h5 h6 ht _
    exact .byteArray (A.byKind ht h1) (by rw [A.same ht]; exact h2) ((A.byteElem (A.types.parts _ _ ht (.array h2))).mpr h3) h4 h5 h6
  case array =>
    intro t ca n e vs bs h1 h2 h3 h4 _ ih ht hv
    have he := A.types.parts _ _ ht (.array h2)
    exact .array (A.byKind ht h1) (by rw [A.same ht]; exact h2) (fun h => h3 ((A.byteElem he).mp h)) h4
      fun i v b hi hb => ih i v b hi hb he (madeOf_array hv v (List.mem_of_getElem? hi))
  case mapNil =>
    intro t ca k e h1 h2 h3 h4 ht _
    exact .mapNil (A.byKind ht h1) (by rw [A.same ht]; exact h2) ((A.keyType (A.types.parts _ _ ht (.key h2))).mpr h3) h4
  case mapNil0 =>
    intro t ca k e h1 h2 h3 h4 ht _
    exact .mapNil0 (A.byKind ht h1) (by rw [A.same ht]; exact h2) ((A.keyType (A.types.parts _ _ ht (.key h2))).mpr h3) h4
  case map =>
    intro t ca k e kvs ms ms' h1 h2 h3 h4 _ _ h7 ih1 ih2 ht hv
    have hk := A.types.parts _ _ ht (.key h2)
    have he := A.types.parts _ _ ht (.val h2)
    have hm := madeOf_map hv
    exact .map (A.byKind ht h1) (by rw [A.same ht]; exact h2) ((A.keyType hk).mpr h3) h4
      (fun i kv m hi hb => ih1 i kv m hi hb hk (hm kv (List.mem_of_getElem? hi)).1)
      (fun i kv m hi hb => ih2 i kv m hi hb he (hm kv (List.mem_of_getElem? hi)).2) h7
  case struct =>
    intro t ca v l tried kept q' x b key c h1 h2 h3 h4 h5 h6 h7 _ h9 h10 h11 h12 ih ht hv
    have hin : ∀ m ∈ tried, S m.decl.typ := fun m hm => A.chosen_in ht ((h3.2 m).mp (h4.subset hm))
    refine .struct (q' := q') (A.byKind ht h1) ((A.types.isStruct ht).mpr h2) (A.members ht h3) h4 h5 h6 ?_ ?_ h9 ?_ h11 h12
    · intro m hm; rw [A.basicOrPtr (hin m hm)]; exact h7 m hm
    · intro m hm; exact ih m hm (hin m hm) (madeOf_field hv (h6 m hm))
    · intro m hm; rw [A.nullDropped (hin m hm)]; exact h10 m hm
  case kstr => intro kt s b h1 h2 ht _; exact .str (by rw [A.same ht]; exact h1) h2
  case knil => intro kt h1 h2 h3 ht _; exact .nilText (by rw [A.same ht]; exact h1) (by rw [A.same ht]; exact h2) ((A.isPtr ht).mpr h3)
  case ktext =>
    intro kt x b h1 h2 h3 _ ih ht hv
    exact .text (by rw [A.same ht]; exact h1) (by rw [A.same ht]; exact h2) (fun h => h3 ((A.isPtr ht).mp h)) (ih ht hv)
  case kquoted =>
    intro kt x b h1 h2 _ ih ht hv
    exact .quoted (by rw [A.same ht]; exact h1) (by rw [A.same ht]; exact h2) (ih ht hv)
  case sstr => intro kt s b h1 h2 hv; have ht := (madeOf_iface hv).1; exact .str (by rw [A.same ht]; exact h1) h2
  case stext =>
    intro kt x b h1 h2 _ ih hv
    obtain ⟨ht, hx⟩ := madeOf_iface hv
    exact .text (by rw [A.same ht]; exact h1) (by rw [A.same ht]; exact h2) (by rw [A.same ht]; exact ih ht hx)
  case squoted =>
    intro kt k x b h1 h2 _ ih hv
    obtain ⟨ht, hx⟩ := madeOf_iface hv
    exact .quoted (by rw [A.same ht]; exact h1) (by rw [A.same ht]; exact h2) (by rw [A.same ht]; exact ih ht hx)

/-! ## Parts and faults -/

theorem Sharing.part (A : Sharing S W W' M M') {t t' : TId} {v v' : Val} (ht : S t) (hv : MadeOf S v) (h : Part W.E t v t' v') :
    Part W'.E t v t' v' ∧ S t' ∧ MadeOf S v' := by
  cases h with
  | ptr h => exact ⟨.ptr (by rw [A.same ht]; exact h), A.types.parts _ _ ht (.ptr h), madeOf_ptr hv⟩
  | slice h hm => exact ⟨.slice (by rw [A.same ht]; exact h) hm, A.types.parts _ _ ht (.slice h), madeOf_slice hv _ hm⟩
  | array h hm => exact ⟨.array (by rw [A.same ht]; exact h) hm, A.types.parts _ _ ht (.array h), madeOf_array hv _ hm⟩
  | key h hm => exact ⟨.key (by rw [A.same ht]; exact h) hm, A.types.parts _ _ ht (.key h), (madeOf_map hv _ hm).1⟩
  | elem h hm => exact ⟨.elem (by rw [A.same ht]; exact h) hm, A.types.parts _ _ ht (.val h), (madeOf_map hv _ hm).2⟩
  | field h hf hm => exact ⟨.field (by rw [A.same ht]; exact h) hf hm, A.types.fields _ _ _ ht h (List.mem_of_getElem? hf), madeOf_struct hv _ (List.mem_of_getElem? hm)⟩
  | iface => exact ⟨.iface, madeOf_iface hv⟩
  | skey hm hk => exact ⟨.skey hm hk, madeOf_iface (by rw [← hk]; exact (madeOf_smap hv _ hm).1)⟩
  | selem hm hk => exact ⟨.selem hm hk, madeOf_iface (by rw [← hk]; exact (madeOf_smap hv _ hm).2)⟩

theorem Sharing.within (A : Sharing S W W' M M') {t t' : TId} {v v' : Val} (ht : S t) (hv : MadeOf S v) (h : Within W.E t v t' v') :
    Within W'.E t v t' v' ∧ S t' ∧ MadeOf S v' := by
  induction h with
  | refl => exact ⟨.refl, ht, hv⟩
  | step _ hp ih =>
    obtain ⟨h1, h2, h3⟩ := ih
    obtain ⟨h4, h5, h6⟩ := A.part h2 h3 hp
    exact ⟨.step h1 h4, h5, h6⟩

theorem Sharing.timesFine (A : Sharing S W W' M M') {t : TId} {v : Val} (ht : S t) (hv : MadeOf S v) (h : TimesFine W t v) : TimesFine W' t v :=
  fun t' x hw => h t' x (A.symm.within ht hv hw).1

theorem Sharing.encodes1 (A : Sharing S W W' M M') {t t' : TId} {ca ca' : Bool} {v v' : Val} (ht : S t) (hv : MadeOf S v)
    (h : Encodes1 W o t ca v t' ca' v') : Encodes1 W' o t ca v t' ca' v' ∧ S t' ∧ MadeOf S v' := by
  cases h with
  | ptr h1 h => exact ⟨.ptr (A.byKind ht h1) (by rw [A.same ht]; exact h), A.types.parts _ _ ht (.ptr h), madeOf_ptr hv⟩
  | iface h1 h =>
    have hd := madeOf_iface hv
    rw [← A.same hd.1]
    exact ⟨.iface (A.byKind ht h1) (by rw [A.same ht]; exact h), hd⟩
  | slice h1 h h3 hm =>
    have he := A.types.parts _ _ ht (.slice h)
    exact ⟨.slice (A.byKind ht h1) (by rw [A.same ht]; exact h) (mt (A.byteElem he).mp h3) hm, he, madeOf_slice hv _ hm⟩
  | array h1 h h3 hm =>
    have he := A.types.parts _ _ ht (.array h)
    exact ⟨.array (A.byKind ht h1) (by rw [A.same ht]; exact h) (by rw [A.byteElem he]; exact h3) hm, he, madeOf_array hv _ hm⟩
  | key h1 h h3 h4 h5 hm =>
    have he := A.types.parts _ _ ht (.key h)
    exact ⟨.key (A.byKind ht h1) (by rw [A.same ht]; exact h) ((A.keyType he).mpr h3) (by rw [A.same he]; exact h4)
      (by rw [A.same he, A.isPtr he]; exact h5) hm, he, (madeOf_map hv _ hm).1⟩
  | elem h1 h h3 hm =>
    have he := A.types.parts _ _ ht (.key h)
    exact ⟨.elem (A.byKind ht h1) (by rw [A.same ht]; exact h) ((A.keyType he).mpr h3) hm, A.types.parts _ _ ht (.val h), (madeOf_map hv _ hm).2⟩
  | field h1 h2 h3 h4 h5 =>
    exact ⟨.field (A.byKind ht h1) ((A.types.isStruct ht).mpr h2) (by rw [A.tab]; exact (A.types.chosen ht).mpr h3) h4 h5,
      A.chosen_in ht h3, madeOf_field hv h5⟩
  | skey h1 hm hk h4 h5 =>
    have hd := madeOf_iface (by rw [← hk]; exact (madeOf_smap hv _ hm).1)
    rw [← A.same hd.1]
    exact ⟨.skey (by rw [A.same ht]; exact h1) hm hk ((A.keyType hd.1).mpr h4) (by rw [A.same hd.1]; exact h5), hd⟩
  | selem h1 hm hk =>
    have hd := madeOf_iface (by rw [← hk]; exact (madeOf_smap hv _ hm).2)
    rw [← A.same hd.1]
    exact ⟨.selem (by rw [A.same ht]; exact h1) hm hk, hd⟩

theorem Sharing.encodes (A : Sharing S W W' M M') {t t' : TId} {ca ca' : Bool} {v v' : Val} (h : Encodes W o t ca v t' ca' v') :
    S t → MadeOf S v → Encodes W' o t ca v t' ca' v' ∧ S t' ∧ MadeOf S v' := by
  induction h with
  | refl => exact fun ht hv => ⟨.refl, ht, hv⟩
  | step h1 _ ih =>
    intro ht hv
    obtain ⟨h2, h3, h4⟩ := A.encodes1 ht hv h1
    obtain ⟨h5, h6⟩ := ih h3 h4
    exact ⟨.step h2 h5, h6⟩

theorem Sharing.fault (A : Sharing S W W' M M') {t : TId} {ca : Bool} {v : Val} {e : Err} (ht : S t) (hv : MadeOf S v) (h : Fault W M o t ca v e) :
    Fault W' M' o t ca v e := by
  cases h with
  | float h1 h2 h3 => exact .float (A.byKind ht h1) (by rw [A.same ht]; exact h2) h3
  | seconds h1 h2 h3 => rw [← A.df] at h3 ⊢; exact .seconds (by rw [A.same ht]; exact h1) h2 h3
  | minutes h1 h2 h3 => rw [← A.df] at h3 ⊢; exact .minutes (by rw [A.same ht]; exact h1) h2 h3
  | number h1 h2 h3 h4 => exact .number (by rw [A.same ht]; exact h1) h2 h3 h4
  | time h1 h2 => exact .time (by rw [A.same ht]; exact h1) h2
  | typ h1 h2 =>
    refine .typ (A.byKind ht h1) ?_
    rw [A.same ht]
    rcases h2 with h2 | ⟨k, e, h2, h3⟩
    · exact .inl h2
    · exact .inr ⟨k, e, h2, mt (A.keyType (A.types.parts _ _ ht (.key h2))).mp h3⟩
  | method h1 h2 h3 h4 =>
    obtain ⟨h3', hr⟩ := A.receives ht hv h3
    exact .method (by rw [A.same ht]; exact h1) (A.picks ht h2) h3' (by rw [A.meth _ _ _ _ _ _ hr]; exact h4)
  | malformed h1 h2 h3 h4 h5 h6 =>
    obtain ⟨h3', hr⟩ := A.receives ht hv h3
    exact .malformed (by rw [A.same ht]; exact h1) (A.picks ht h2) h3' (by rw [A.meth _ _ _ _ _ _ hr]; exact h4) h5 h6
  | nilKey h1 h2 h3 => exact .nilKey (by rw [A.same ht]; exact h1) h2 h3
  | badKey h1 h2 h3 h4 =>
    have hd := madeOf_iface (by rw [← h3]; exact (madeOf_smap hv _ h2).1)
    exact .badKey (by rw [A.same ht]; exact h1) h2 h3 (mt (A.keyType hd.1).mp h4)

theorem Sharing.shortKey (A : Sharing S W W' M M') {k : TId} {ca : Bool} {v : Val} (ht : S k) (hv : MadeOf S v) (h : ShortKey W M o k ca v) :
    ShortKey W' M' o k ca v := by
  have e := A.same ht
  cases h with
  | time h1 h2 h3 h4 h5 h6 => exact .time (by rw [e]; exact h1) (by rw [e]; exact h2) h3 h4 h5 h6
  | append h1 h2 h3 h4 h5 h6 h7 =>
    obtain ⟨h5', hr⟩ := A.receives ht hv h5
    exact .append (by rw [e]; exact h1) (by rw [e]; exact h2) (A.picks ht h3) h4 h5' (by rw [A.meth _ _ _ _ _ _ hr]; exact h6) h7
  | verbatim h1 h2 h3 h5 h6 h7 h8 =>
    obtain ⟨h5', hr⟩ := A.receives ht hv h5
    exact .verbatim (by rw [e]; exact h1) (by rw [e]; exact h2) (A.picks ht h3) h5' (by rw [A.meth _ _ _ _ _ _ hr]; exact h6) h7 h8
  | json h1 h2 h3 h5 h6 h7 h8 h9 =>
    obtain ⟨h5', hr⟩ := A.receives ht hv h5
    exact .json (by rw [e]; exact h1) (by rw [e]; exact h2) (A.picks ht h3) h5' (by rw [A.meth _ _ _ _ _ _ hr]; exact h6) h7 h8 h9

theorem Sharing.trap (A : Sharing S W W' M M') {t : TId} {ca : Bool} {v : Val} (ht : S t) (hv : MadeOf S v) (h : Trap W M o t ca v) :
    Trap W' M' o t ca v := by
  cases h with
  | nilElem h1 h2 h3 => exact .nilElem (by rw [A.same ht]; exact h1) h2 h3
  | method h1 h2 h3 h4 =>
    obtain ⟨h3', hr⟩ := A.receives ht hv h3
    exact .method (by rw [A.same ht]; exact h1) (A.picks ht h2) h3' (by rw [A.meth _ _ _ _ _ _ hr]; exact h4)
  | key h1 h2 h3 h4 h5 h6 =>
    have hk := A.types.parts _ _ ht (.key h2)
    exact .key (A.byKind ht h1) (by rw [A.same ht]; exact h2) (by rw [A.same hk]; exact h3) h4 h5 (A.shortKey hk (madeOf_map hv _ h5).1 h6)
  | skey h1 h2 h3 h4 h5 h6 =>
    have hd := madeOf_iface (by rw [← h4]; exact (madeOf_smap hv _ h3).1)
    exact .skey (by rw [A.same ht]; exact h1) h2 h3 h4 (by rw [A.same hd.1]; exact h5) (by rw [A.same hd.1]; exact A.shortKey hd.1 hd.2 h6)

theorem Sharing.blameless (A : Sharing S W W' M M') {t : TId} {ca : Bool} {v : Val} (ht : S t) (hv : MadeOf S v) (h : Blameless W M o t ca v) :
    Blameless W' M' o t ca v := by
  intro t' ca' v' he
  obtain ⟨h1, h2, h3⟩ := A.symm.encodes he ht hv
  obtain ⟨h4, h5⟩ := h t' ca' v' h1
  exact ⟨fun e hf => h4 e (A.symm.fault h2 h3 hf), fun hf => h5 (A.symm.trap h2 h3 hf)⟩

theorem Sharing.keyPasses (A : Sharing S W W' M M') {k : TId} {v : Val} (ht : S k) (hv : MadeOf S v) (h : KeyPasses W M o k v) :
    KeyPasses W' M' o k v := by
  unfold KeyPasses at h ⊢
  rw [A.same ht, A.isPtr ht]
  exact fun hk => ⟨fun hn => A.blameless ht hv ((h hk).1 hn), fun hu hs => (h hk).2 hu (A.symm.shortKey ht hv hs)⟩

theorem Sharing.syncKeyPasses (A : Sharing S W W' M M') {x : Val} (hx : MadeOf S x) (h : SyncKeyPasses W M o x) : SyncKeyPasses W' M' o x := by
  obtain ⟨d, v, rfl, h1, h2⟩ := h
  obtain ⟨hd, hv⟩ := madeOf_iface hx
  refine ⟨d, v, rfl, (A.keyType hd).mpr h1, ?_⟩
  rw [A.same hd]
  exact fun hk => ⟨A.blameless hd hv (h2 hk).1, fun hu hs => (h2 hk).2 hu (A.symm.shortKey hd hv hs)⟩

theorem Sharing.first (A : Sharing S W W' M M') {t : TId} {ca : Bool} {v : Val} {r : Option Err} (h : First W M o t ca v r) :
    S t → MadeOf S v → First W' M' o t ca v r := by
  induction h with
  | fault h1 h2 => exact fun ht hv => .fault (by rw [A.same ht]; exact h1) (A.fault ht hv h2)
  | method h1 h2 h3 h4 =>
    intro ht hv
    obtain ⟨h3', hr⟩ := A.receives ht hv h3
    exact .method (by rw [A.same ht]; exact h1) (A.picks ht h2) h3' (by rw [A.meth _ _ _ _ _ _ hr]; exact h4)
  | ptr h1 h2 _ ih => exact fun ht hv => .ptr (A.byKind ht h1) (by rw [A.same ht]; exact h2) (ih (A.types.parts _ _ ht (.ptr h2)) (madeOf_ptr hv))
  | iface h1 h2 _ ih =>
    intro ht hv
    have hd := madeOf_iface hv
    exact .iface (A.byKind ht h1) (by rw [A.same ht]; exact h2) (by rw [A.same hd.1]; exact ih hd.1 hd.2)
  | slice h1 h2 h3 h4 h5 _ ih =>
    intro ht hv
    have he := A.types.parts _ _ ht (.slice h2)
    subst h4
    have hm := madeOf_slice hv
    exact .slice (A.byKind ht h1) (by rw [A.same ht]; exact h2) (mt (A.byteElem he).mp h3) rfl
      (fun u hu => A.blameless he (hm u (List.mem_append_left _ hu)) (h5 u hu)) (ih he (hm _ (by simp)))
  | array h1 h2 h3 h4 h5 _ ih =>
    intro ht hv
    have he := A.types.parts _ _ ht (.array h2)
    subst h4
    have hm := madeOf_array hv
    exact .array (A.byKind ht h1) (by rw [A.same ht]; exact h2) (by rw [A.byteElem he]; exact h3) rfl
      (fun u hu => A.blameless he (hm u (List.mem_append_left _ hu)) (h5 u hu)) (ih he (hm _ (by simp)))
  | field h1 h2 h3 h4 h5 h6 h7 _ ih =>
    intro ht hv
    subst h4
    have hin := fun m hm => A.chosen_in ht ((h3.2 m).mp hm)
    exact .field (A.byKind ht h1) ((A.types.isStruct ht).mpr h2) (A.members ht h3) rfl
      (fun m' hm hl y hy => A.blameless (hin m' (List.mem_append_left _ hm)) (madeOf_field hv hy) (h5 m' hm hl y hy)) h6 h7
      (ih (hin _ (by simp)) (madeOf_field hv h7))
  | key h1 h2 h3 h4 h5 h6 _ ih =>
    intro ht hv
    have hk := A.types.parts _ _ ht (.key h2)
    exact .key (A.byKind ht h1) (by rw [A.same ht]; exact h2) ((A.keyType hk).mpr h3) (by rw [A.same hk]; exact h4)
      (by rw [A.same hk, A.isPtr hk]; exact h5) h6 (ih hk (madeOf_map hv _ h6).1)
  | short h1 h2 h3 h4 h5 h6 h7 =>
    intro ht hv
    have hk := A.types.parts _ _ ht (.key h2)
    have hm := (madeOf_map hv _ h5).1
    refine .short (A.byKind ht h1) (by rw [A.same ht]; exact h2) (by rw [A.same hk]; exact h3) h4 h5 ?_ (A.shortKey hk hm h7)
    rw [A.same hk, A.isPtr hk]
    exact fun h => A.blameless hk hm (h6 h)
  | elem h1 h2 h3 h4 h5 _ ih =>
    intro ht hv
    have hk := A.types.parts _ _ ht (.key h2)
    exact .elem (A.byKind ht h1) (by rw [A.same ht]; exact h2) ((A.keyType hk).mpr h3) h4 (A.keyPasses hk (madeOf_map hv _ h4).1 h5)
      (ih (A.types.parts _ _ ht (.val h2)) (madeOf_map hv _ h4).2)
  | nilKey h1 h2 h3 => exact fun ht _ => .nilKey (by rw [A.same ht]; exact h1) h2 h3
  | badKey h1 h2 h3 h4 =>
    intro ht hv
    have hd := madeOf_iface (by rw [← h3]; exact (madeOf_smap hv _ h2).1)
    exact .badKey (by rw [A.same ht]; exact h1) h2 h3 (mt (A.keyType hd.1).mp h4)
  | skey h1 h2 h3 h4 h5 _ ih =>
    intro ht hv
    have hd := madeOf_iface (by rw [← h3]; exact (madeOf_smap hv _ h2).1)
    exact .skey (by rw [A.same ht]; exact h1) h2 h3 ((A.keyType hd.1).mpr h4) (by rw [A.same hd.1]; exact h5)
      (by rw [A.same hd.1]; exact ih hd.1 hd.2)
  | sshort h1 h2 h3 h4 h5 h6 h7 =>
    intro ht hv
    have hd := madeOf_iface (by rw [← h4]; exact (madeOf_smap hv _ h3).1)
    exact .sshort (by rw [A.same ht]; exact h1) h2 h3 h4 (by rw [A.same hd.1]; exact h5)
      (by rw [A.same hd.1]; exact A.blameless hd.1 hd.2 h6) (by rw [A.same hd.1]; exact A.shortKey hd.1 hd.2 h7)
  | nilElem h1 h2 h3 h4 => exact fun ht hv => .nilElem (by rw [A.same ht]; exact h1) h2 (A.syncKeyPasses (madeOf_smap hv _ h2).1 h3) h4
  | selem h1 h2 h3 h4 _ ih =>
    intro ht hv
    have hd := madeOf_iface (by rw [← h4]; exact (madeOf_smap hv _ h2).2)
    exact .selem (by rw [A.same ht]; exact h1) h2 (A.syncKeyPasses (madeOf_smap hv _ h2).1 h3) h4 (by rw [A.same hd.1]; exact ih hd.1 hd.2)

end Jettison.Proofs
