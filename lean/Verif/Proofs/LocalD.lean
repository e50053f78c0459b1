import Verif.Proofs.LocalW
import Verif.Spec.Doc

/-! # The tree of a value does not depend on other types -/

namespace Jettison.Proofs
open Jettison Jettison.Model Jettison.Spec

variable {S : TId → Prop} {W W' : World} {M M' : MethV} {o : EncOpts}

section
variable (A : Sharing S W W' M M')
include A

theorem Sharing.timeTree {x : GoTime} {j : Json} (h : TimeTree W o x j) : TimeTree W' o x j := by
  cases h with
  | unix h1 h2 => exact .unix h1 h2
  | rfc3339 h1 h2 h3 => exact .rfc3339 h1 h2 h3
  | nano h1 h2 h3 => exact .nano h1 h2 h3
  | layout h1 h2 => rw [← A.format]; exact .layout h1 h2

theorem Sharing.durTree {d : Int64} {j : Json} (h : DurTree W o d j) : DurTree W' o d j := by
  cases h with
  | str h1 h2 => exact .str h1 h2
  | ns h1 h2 => exact .ns h1 h2
  | us h1 h2 => exact .us h1 h2
  | ms h1 h2 => exact .ms h1 h2
  | sec h1 h2 => exact .sec h1 (by rw [A.fmt, A.df]; exact h2)
  | min h1 h2 => exact .min h1 (by rw [A.fmt, A.df]; exact h2)

theorem Sharing.methTree {rt : TId} (ht : S rt) {x : Val} {m : MethKind} {j : Json} (h : MethTree M o rt x m j) : MethTree M' o rt x m j := by
  cases h with
  | ctx h h1 => exact .ctx (by rw [A.meth _ _ _ _ _ _ ht]; exact h) h1
  | app h h1 => exact .app (by rw [A.meth _ _ _ _ _ _ ht]; exact h) h1
  | json h h1 => exact .json (by rw [A.meth _ _ _ _ _ _ ht]; exact h) h1
  | text h => exact .text (by rw [A.meth _ _ _ _ _ _ ht]; exact h)

theorem Sharing.denotes {t : TId} {ca q : Bool} {v : Val} {j : Json} (h : Denotes W M o t ca q v j) :
    S t → MadeOf S v → Denotes W' M' o t ca q v j := by
  refine Spec.Denotes.rec (motive_1 := fun t ca q v b _ => S t → MadeOf S v → Denotes W' M' o t ca q v b)
    (motive_2 := fun v j _ => MadeOf S v → HeldDenotes W' M' o v j)
    (motive_3 := fun k ca v b _ => S k → MadeOf S v → KeyDenotes W' M' o k ca v b)
    (motive_4 := fun v b _ => MadeOf S v → SyncKeyDenotes W' M' o v b)
    ?methNil ?meth ?time ?duration ?number0 ?number ?rawNil ?raw ?smap ?bool ?int ?float ?str ?quoted ?ptrNil ?ptr
    ?iface ?bytesNil ?bytes ?rawBytes ?sliceNil ?sliceNil0 ?slice ?byteArray ?array ?mapNil ?mapNil0 ?map ?struct
    ?hnil ?hval ?kstr ?knum ?ktext ?knil ?skey h
  all_goals clear h t ca q v j
  case methNil =>
    intro t ca q m h1 h2 h3 h4 ht _
    exact .methNil (by rw [A.same ht]; exact h1) (A.picks ht h2) (by rw [A.same ht]; exact h3) (by rw [A.isPtr ht, A.isIface ht]; exact h4)
  case meth =>
    intro t ca q m v rt x u b h1 h2 h3 h4 ht hv
    obtain ⟨h3', hr⟩ := A.receives ht hv h3
    exact .meth (by rw [A.same ht]; exact h1) (A.picks ht h2) h3' (A.methTree hr h4)
  case time => intro t ca x b h1 h3 ht _; exact .time (by rw [A.same ht]; exact h1) (A.timeTree h3)
  case duration => intro t ca x b h1 h3 ht _; exact .duration (by rw [A.same ht]; exact h1) (A.durTree h3)
  case number0 => intro t ca h1 ht _; exact .number0 (by rw [A.same ht]; exact h1)
  case number => intro t ca s h1 h3 ht _; exact .number (by rw [A.same ht]; exact h1) h3
  case rawNil => intro t ca h1 ht _; exact .rawNil (by rw [A.same ht]; exact h1)
  case raw => intro t ca vs b c h1 h2 h3 ht _; exact .raw (by rw [A.same ht]; exact h1) h2 h3
  case smap =>
    intro t ca kvs ms ms' h1 h2 _ _ h6 ih1 ih2 ht hv
    have hm := madeOf_smap hv
    exact .smap (by rw [A.same ht]; exact h1) h2 (fun i kv m hk hi => ih1 i kv m hk hi (hm kv (List.mem_of_getElem? hk)).1)
      (fun i kv m hk hi => ih2 i kv m hk hi (hm kv (List.mem_of_getElem? hk)).2) h6
  case bool => intro t ca b h1 h2 ht _; exact .bool (A.byKind ht h1) (by rw [A.same ht]; exact h2)
  case int => intro t ca k x b h1 h2 h3 ht _; exact .int (A.byKind ht h1) (by rw [A.same ht]; exact h2) h3
  case float => intro t ca k x b h1 h2 h3 ht _; exact .float (A.byKind ht h1) (by rw [A.same ht]; exact h2) (by rw [A.fmt]; exact h3)
  case str => intro t ca s b h1 h2 h3 ht _; exact .str (A.byKind ht h1) (by rw [A.same ht]; exact h2) h3
  case quoted =>
    intro t ca v j b h1 h2 _ h3 ih ht hv
    exact .quoted (A.byKind ht h1) (by rw [A.same ht]; exact h2) (ih ht hv) h3
  case ptrNil => intro t ca q e h1 h2 ht _; exact .ptrNil (A.byKind ht h1) (by rw [A.same ht]; exact h2)
  case ptr =>
    intro t ca q e v b h1 h2 _ ih ht hv
    exact .ptr (A.byKind ht h1) (by rw [A.same ht]; exact h2) (ih (A.types.parts _ _ ht (.ptr h2)) (madeOf_ptr hv))
  case iface =>
    intro t ca k v j h1 h2 _ ih ht hv
    exact .iface (A.byKind ht h1) (by rw [A.same ht]; exact h2) (ih hv)
  case bytesNil =>
    intro t ca e h1 h2 h3 h4 ht _
    exact .bytesNil (A.byKind ht h1) (by rw [A.same ht]; exact h2) ((A.byteElem (A.types.parts _ _ ht (.slice h2))).mpr h3) h4
  case bytes =>
    intro t ca e vs x b h1 h2 h3 h4 h5 h6 ht _
    exact .bytes (A.byKind ht h1) (by rw [A.same ht]; exact h2) ((A.byteElem (A.types.parts _ _ ht (.slice h2))).mpr h3) h4 h5 h6
  case rawBytes =>
    intro t ca e vs x b h1 h2 h3 h4 h5 h6 ht _
    exact .rawBytes (A.byKind ht h1) (by rw [A.same ht]; exact h2) ((A.byteElem (A.types.parts _ _ ht (.slice h2))).mpr h3) h4 h5 h6
  case sliceNil =>
    intro t ca e h1 h2 h3 h4 ht _
    exact .sliceNil (A.byKind ht h1) (by rw [A.same ht]; exact h2) (mt (A.byteElem (A.types.parts _ _ ht (.slice h2))).mp h3) h4
  case sliceNil0 =>
    intro t ca e h1 h2 h4 ht _
    exact .sliceNil0 (A.byKind ht h1) (by rw [A.same ht]; exact h2) h4
  case slice =>
    intro t ca e vs bs h1 h2 h3 h4 _ ih ht hv
    have he := A.types.parts _ _ ht (.slice h2)
    exact .slice (A.byKind ht h1) (by rw [A.same ht]; exact h2) (mt (A.byteElem he).mp h3) h4
      fun i v b hi hb => ih i v b hi hb he (madeOf_slice hv v (List.mem_of_getElem? hi))
  case byteArray =>
    intro t ca n e vs x b h1 h2 h3 h4 h5 h6 ht _
    exact .byteArray (A.byKind ht h1) (by rw [A.same ht]; exact h2) ((A.byteElem (A.types.parts _ _ ht (.array h2))).mpr h3) h4 h5 h6
  case array =>
    intro t ca n e vs bs h1 h2 h3 h4 _ ih ht hv
    have he := A.types.parts _ _ ht (.array h2)
    exact .array (A.byKind ht h1) (by rw [A.same ht]; exact h2) (fun h => h3 ((A.byteElem he).mp h)) h4
      fun i v b hi hb => ih i v b hi hb he (madeOf_array hv v (List.mem_of_getElem? hi))
  case mapNil => intro t ca k e h1 h2 h4 ht _; exact .mapNil (A.byKind ht h1) (by rw [A.same ht]; exact h2) h4
  case mapNil0 => intro t ca k e h1 h2 h4 ht _; exact .mapNil0 (A.byKind ht h1) (by rw [A.same ht]; exact h2) h4
  case map =>
    intro t ca k e kvs ms ms' h1 h2 h4 _ _ h7 ih1 ih2 ht hv
    have hk := A.types.parts _ _ ht (.key h2)
    have he := A.types.parts _ _ ht (.val h2)
    have hm := madeOf_map hv
    exact .map (A.byKind ht h1) (by rw [A.same ht]; exact h2) h4
      (fun i kv m hi hb => ih1 i kv m hi hb hk (hm kv (List.mem_of_getElem? hi)).1)
      (fun i kv m hi hb => ih2 i kv m hi hb he (hm kv (List.mem_of_getElem? hi)).2) h7
  case struct =>
    intro t ca v l kept q' x j h1 h2 h3 h4 h5 h6 h7 _ ih ht hv
    have hin : ∀ m ∈ kept, S m.decl.typ := fun m hm => A.chosen_in ht ((h3.2 m).mp (h4.subset hm))
    refine .struct (q' := q') (A.byKind ht h1) ((A.types.isStruct ht).mpr h2) (A.members ht h3) h4 h5 h6 ?_ ?_
    · intro m hm; rw [A.basicOrPtr (hin m hm)]; exact h7 m hm
    · intro m hm; exact ih m hm (hin m hm) (madeOf_field hv (h6 m hm))
  case hnil => intro _; exact .nil
  case hval =>
    intro d x j _ ih hv
    obtain ⟨hd, hx⟩ := madeOf_iface hv
    exact .val (by rw [A.same hd]; exact ih hd hx)
  case kstr => intro kt ca s b h1 h2 ht _; exact .str (by rw [A.same ht]; exact h1) h2
  case knum =>
    intro kt ca x b h1 h2 _ ih ht hv
    exact .num (by rw [A.same ht]; exact h1) (by rw [A.same ht]; exact h2) (ih ht hv)
  case ktext =>
    intro kt ca x b h1 h2 _ ih ht hv
    exact .text (by rw [A.same ht]; exact h1) (by rw [A.same ht]; exact h2) (ih ht hv)
  case knil => intro kt ca h2 h3 ht _; exact .nilText (by rw [A.same ht]; exact h2) ((A.isPtr ht).mpr h3)
  case skey =>
    intro d x c _ ih hv
    obtain ⟨hd, hx⟩ := madeOf_iface hv
    exact .key (by rw [A.same hd]; exact ih hd hx)

theorem Sharing.keyFine {t : TId} {v : Val} (ht : S t) (h : KeyFine W o t v) : KeyFine W' o t v := by
  have e := A.same ht
  refine ⟨?_, ?_⟩
  · rw [e]
    intro h1 h2
    exact (h.num h1 h2).imp_left (A.byKind ht)
  · rw [e, A.isIface ht]
    intro h1 h2
    exact (h.text h1 h2).imp_left fun ⟨a, b, c⟩ => ⟨a, A.picks ht b, c⟩

theorem Sharing.fine {t : TId} {v : Val} (ht : S t) (hv : MadeOf S v) (h : Fine W M o t v) : Fine W' M' o t v where
  meth := by
    rw [A.same ht]
    intro hs ca m rt x u path c b hp hr hm
    obtain ⟨hr', hrt⟩ := A.symm.receives ht hv hr
    exact h.meth hs ca m rt x u path c b (A.symm.picks ht hp) hr' (by rw [← A.meth _ _ _ _ _ _ hrt]; exact hm)
  time x hx := by
    obtain ⟨a, b, c, d⟩ := h.time x hx
    exact ⟨a, b, c, by rw [A.format]; exact d⟩
  number := by rw [A.same ht]; exact h.number
  raw := by rw [A.same ht]; exact h.raw
  nilBytes := by
    rw [A.same ht]
    intro e h1 h2 h3
    exact h.nilBytes e h1 h2 ((A.byteElem (A.types.parts _ _ ht (.slice h2))).mp h3)
  key := by
    rw [A.same ht]
    intro k e kvs kv h1 h2 h3
    exact A.keyFine (A.types.parts _ _ ht (.key h1)) (h.key k e kvs kv h1 h2 h3)
  skey kvs kv d x h1 h2 h3 := by
    subst h1
    obtain ⟨hd, -⟩ := madeOf_iface (by rw [← h3]; exact (madeOf_smap hv _ h2).1)
    rw [A.isPtr hd]
    exact ⟨A.keyFine hd (h.skey kvs kv d x rfl h2 h3).1, (h.skey kvs kv d x rfl h2 h3).2⟩
  tag m x h1 h2 h3 h4 := by
    rw [A.tab] at h1
    have h1 := (A.types.chosen ht).mp h1
    have hm := A.chosen_in ht h1
    obtain ⟨⟨a, b⟩, c⟩ := h.tag m x h1 h2 h3 ((A.basicOrPtr hm).mp h4)
    refine ⟨⟨by rw [A.same hm]; exact a, ?_⟩, c⟩
    rw [A.same hm]
    intro e he
    rw [A.same (A.types.parts _ _ hm (.ptr he))]
    exact b e he
  null m h1 h2 h3 := by
    rw [A.tab] at h2
    have h2 := (A.types.chosen ht).mp h2
    have := h.null m ((A.types.isStruct ht).mp h1) h2 h3
    unfold HasMarshalJSON at this ⊢
    rw [A.same (A.chosen_in ht h2)]; exact this

end
end Jettison.Proofs
