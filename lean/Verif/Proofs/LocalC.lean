import Verif.Proofs.LocalW
import Verif.Spec.Cut
import Verif.Spec.Spoils

/-! # What is left beside an error, and what spoils a text, does not depend on other types -/

namespace Jettison.Proofs
open Jettison Jettison.Model Jettison.Spec

variable {S : TId → Prop} {W W' : World} {M M' : MethV} {o : EncOpts}

theorem Sharing.keyWrites (A : Sharing S W W' M M') {k : TId} {v : Val} {b : Bytes} (h : KeyWrites W M o k v b) (ht : S k) (hv : MadeOf S v) :
    KeyWrites W' M' o k v b := by
  cases h with
  | str h1 h2 => exact .str (by rw [A.same ht]; exact h1) h2
  | nilText h1 h2 h3 => exact .nilText (by rw [A.same ht]; exact h1) (by rw [A.same ht]; exact h2) ((A.isPtr ht).mpr h3)
  | text h1 h2 h3 h4 => exact .text (by rw [A.same ht]; exact h1) (by rw [A.same ht]; exact h2) (fun h => h3 ((A.isPtr ht).mp h)) (A.writes h4 ht hv)
  | quoted h1 h2 h3 => exact .quoted (by rw [A.same ht]; exact h1) (by rw [A.same ht]; exact h2) (A.writes h3 ht hv)

theorem Sharing.syncKeyWrites (A : Sharing S W W' M M') {v : Val} {b : Bytes} (h : SyncKeyWrites W M o v b) (hv : MadeOf S v) :
    SyncKeyWrites W' M' o v b := by
  cases h with
  | str h1 h2 => have ht := (madeOf_iface hv).1; exact .str (by rw [A.same ht]; exact h1) h2
  | text h1 h2 h3 =>
    obtain ⟨ht, hx⟩ := madeOf_iface hv
    exact .text (by rw [A.same ht]; exact h1) (by rw [A.same ht]; exact h2) (by rw [A.same ht]; exact A.writes h3 ht hx)
  | quoted h1 h2 h3 =>
    obtain ⟨ht, hx⟩ := madeOf_iface hv
    exact .quoted (by rw [A.same ht]; exact h1) (by rw [A.same ht]; exact h2) (by rw [A.same ht]; exact A.writes h3 ht hx)

theorem Sharing.cut (A : Sharing S W W' M M') {t : TId} {ca q : Bool} {v : Val} {e : Err} {c : Bytes} (h : Cut W M o t ca q v e c) :
    S t → MadeOf S v → Cut W' M' o t ca q v e c := by
  refine Spec.Cut.rec (motive_1 := fun t ca q v e c _ => S t → MadeOf S v → Cut W' M' o t ca q v e c)
    (motive_2 := fun k u kv e c _ => S k → S u → MadeOf S kv.1 → MadeOf S kv.2 → EntryCut W' M' o k u kv e c)
    (motive_3 := fun kv e c _ => MadeOf S kv.1 → MadeOf S kv.2 → SyncEntryCut W' M' o kv e c)
    ?fault ?quoted ?ptr ?iface ?slice ?array ?field ?sorted ?unsorted ?ssorted ?sunsorted ?etext ?equoted ?eelem
    ?snil ?sbad ?stext ?squoted ?selem h
  all_goals clear h t ca q v e c
  case fault =>
    intro t ca q v e h1 h2 h3 ht hv
    exact .fault (by rw [A.same ht]; exact h1) (fun hq hk => h2 hq (A.symm.byKind ht hk)) (A.fault ht hv h3)
  case quoted =>
    intro t ca v e h1 h2 h3 ht hv
    exact .quoted (A.byKind ht h1) (by rw [A.same ht]; exact h2) (A.fault ht hv h3)
  case ptr =>
    intro t ca q u v e c h1 h2 _ ih ht hv
    exact .ptr (A.byKind ht h1) (by rw [A.same ht]; exact h2) (ih (A.types.parts _ _ ht (.ptr h2)) (madeOf_ptr hv))
  case iface =>
    intro t ca k d v e c h1 h2 _ ih ht hv
    have hd := madeOf_iface hv
    exact .iface (A.byKind ht h1) (by rw [A.same ht]; exact h2) (by rw [A.same hd.1]; exact ih hd.1 hd.2)
  case slice =>
    intro t ca u vs pre v post bs e c h1 h2 h3 h4 h5 h6 _ ih ht hv
    have he := A.types.parts _ _ ht (.slice h2)
    subst h4
    have hm := madeOf_slice hv
    exact .slice (A.byKind ht h1) (by rw [A.same ht]; exact h2) (mt (A.byteElem he).mp h3) rfl h5
      (fun i x b hi hb => A.writes (h6 i x b hi hb) he (hm x (List.mem_append_left _ (List.mem_of_getElem? hi)))) (ih he (hm _ (by simp)))
  case array =>
    intro t ca n u vs pre v post bs e c h1 h2 h3 h4 h5 h6 _ ih ht hv
    have he := A.types.parts _ _ ht (.array h2)
    subst h4
    have hm := madeOf_array hv
    exact .array (A.byKind ht h1) (by rw [A.same ht]; exact h2) (fun h => h3 ((A.byteElem he).mp h)) rfl h5
      (fun i x b hi hb => A.writes (h6 i x b hi hb) he (hm x (List.mem_append_left _ (List.mem_of_getElem? hi)))) (ih he (hm _ (by simp)))
  case field =>
    intro t ca v l pre post tried kept m q' x b key lead e c h1 h2 h3 h4 h5 h6 h7 h8 h9 h10 h11 h12 h13 h14 _ ih ht hv
    subst h4
    have hin := fun m hm => A.chosen_in ht ((h3.2 m).mp hm)
    have htr : ∀ m' ∈ tried, S m'.decl.typ := fun m' hm => hin m' (List.mem_append_left _ (h5.subset hm))
    have hmm : S m.decl.typ := hin m (by simp)
    refine .field (q' := q') (x := x) (b := b) (A.byKind ht h1) ((A.types.isStruct ht).mpr h2) (A.members ht h3) rfl h5 h6 h7 h8 ?_ ?_ h11 ?_ h13 h14
      (ih hmm (madeOf_field hv (h8 m (.inr rfl))))
    · intro m' hm'
      rw [A.basicOrPtr (by rcases hm' with hm' | rfl; exact htr m' hm'; exact hmm)]
      exact h9 m' hm'
    · intro m' hm'; exact A.writes (h10 m' hm') (htr m' hm') (madeOf_field hv (h8 m' (.inl hm')))
    · intro m' hm'; rw [A.nullDropped (htr m' hm')]; exact h12 m' hm'
  case sorted =>
    intro t ca k u kvs kv e c h1 h2 h3 h4 h5 _ ih ht hv
    have hk := A.types.parts _ _ ht (.key h2)
    have hm := madeOf_map hv kv h5
    exact .sorted (A.byKind ht h1) (by rw [A.same ht]; exact h2) ((A.keyType hk).mpr h3) h4 h5 (ih hk (A.types.parts _ _ ht (.val h2)) hm.1 hm.2)
  case unsorted =>
    intro t ca k u kvs pre kv post ms e c h1 h2 h3 h4 h5 h6 h7 h8 _ ih ht hv
    have hk := A.types.parts _ _ ht (.key h2)
    have hu := A.types.parts _ _ ht (.val h2)
    have hm : ∀ x ∈ pre ++ kv :: post, MadeOf S x.1 ∧ MadeOf S x.2 := fun x hx => madeOf_map hv x (h5.mem_iff.mpr hx)
    have hp : ∀ {i : Nat} {x}, pre[i]? = some x → MadeOf S x.1 ∧ MadeOf S x.2 := fun hi => hm _ (List.mem_append_left _ (List.mem_of_getElem? hi))
    exact .unsorted (A.byKind ht h1) (by rw [A.same ht]; exact h2) ((A.keyType hk).mpr h3) h4 h5 h6
      (fun i x m hi hb => A.keyWrites (h7 i x m hi hb) hk (hp hi).1) (fun i x m hi hb => A.writes (h8 i x m hi hb) hu (hp hi).2)
      (ih hk hu (hm kv (by simp)).1 (hm kv (by simp)).2)
  case ssorted =>
    intro t ca q kvs kv e c h1 h2 h3 _ ih ht hv
    have hm := madeOf_smap hv kv h3
    exact .ssorted (by rw [A.same ht]; exact h1) h2 h3 (ih hm.1 hm.2)
  case sunsorted =>
    intro t ca q kvs pre kv post ms e c h1 h2 h3 h4 h5 h6 h7 _ ih ht hv
    have hm : ∀ x ∈ pre ++ kv :: post, MadeOf S x.1 ∧ MadeOf S x.2 := fun x hx => madeOf_smap hv x (h3.mem_iff.mpr hx)
    have hp : ∀ {i : Nat} {x}, pre[i]? = some x → MadeOf S x.1 ∧ MadeOf S x.2 := fun hi => hm _ (List.mem_append_left _ (List.mem_of_getElem? hi))
    refine .sunsorted (by rw [A.same ht]; exact h1) h2 h3 h4 (fun i x m hi hb => A.syncKeyWrites (h5 i x m hi hb) (hp hi).1) h6 ?_
      (ih (hm kv (by simp)).1 (hm kv (by simp)).2)
    intro i x m d y hi hb hy
    have hd := (hp hi).2
    rw [hy] at hd
    rw [A.same (madeOf_iface hd).1]
    exact A.writes (h7 i x m d y hi hb hy) (madeOf_iface hd).1 (madeOf_iface hd).2
  case etext =>
    intro k u kv e c h1 h2 h3 _ ih hk _ hv _
    exact .text (by rw [A.same hk]; exact h1) (by rw [A.same hk]; exact h2) (fun h => h3 ((A.isPtr hk).mp h)) (ih hk hv)
  case equoted =>
    intro k u kv e c h1 h2 _ ih hk _ hv _
    exact .quoted (by rw [A.same hk]; exact h1) (by rw [A.same hk]; exact h2) (ih hk hv)
  case eelem =>
    intro k u kv kb e c h1 h2 _ ih hk hu hv hv'
    exact .elem (A.keyWrites h1 hk hv) h2 (ih hu hv')
  case snil => intro kv h1 _ _; exact .nilKey h1
  case sbad =>
    intro kv d x h1 h2 hv _
    rw [h1] at hv
    exact .badKey h1 (mt (A.keyType (madeOf_iface hv).1).mp h2)
  case stext =>
    intro kv d x e c h1 h2 h3 _ ih hv _
    rw [h1] at hv
    obtain ⟨hd, hx⟩ := madeOf_iface hv
    exact .text h1 (by rw [A.same hd]; exact h2) (by rw [A.same hd]; exact h3) (by rw [A.same hd]; exact ih hd hx)
  case squoted =>
    intro kv d x k e c h1 h2 h3 _ ih hv _
    rw [h1] at hv
    obtain ⟨hd, hx⟩ := madeOf_iface hv
    exact .quoted h1 (by rw [A.same hd]; exact h2) (by rw [A.same hd]; exact h3) (by rw [A.same hd]; exact ih hd hx)
  case selem =>
    intro kv kb d x e c h1 h2 h3 _ ih hv hv'
    rw [h3] at hv'
    obtain ⟨hd, hx⟩ := madeOf_iface hv'
    exact .elem (A.syncKeyWrites h1 hv) h2 h3 (by rw [A.same hd]; exact ih hd hx)

/-! ## Malformed texts -/

variable {ws : Bytes → Prop}

theorem Sharing.oddKey (A : Sharing S W W' M M') {k : TId} {ca : Bool} {v : Val} (h : OddKey W o k ca v) (ht : S k) : OddKey W' o k ca v := by
  cases h with
  | native h1 h2 h3 => exact .native (by rw [A.same ht]; exact h1) (by rw [A.same ht]; exact h2) (by rw [A.same ht]; exact h3)
  | method h1 h2 h3 => exact .method (by rw [A.same ht]; exact h1) (A.picks ht h2) h3
  | nilText h1 h2 h3 => exact .nilText (by rw [A.same ht]; exact h1) (A.picks ht h2) (by rw [A.isIface ht, A.isPtr ht]; exact h3)

theorem Sharing.spoils (A : Sharing S W W' M M') {t : TId} {ca : Bool} {v : Val} (h : Spoils ws W M o t ca v) (ht : S t) (hv : MadeOf S v) :
    Spoils ws W' M' o t ca v := by
  cases h with
  | append h1 h2 h3 h4 h5 h6 =>
    obtain ⟨h4', hr⟩ := A.receives ht hv h4
    exact .append (by rw [A.same ht]; exact h1) (A.picks ht h2) h3 h4' (by rw [A.meth _ _ _ _ _ _ hr]; exact h5) h6
  | verbatim h1 h2 h3 h4 h5 h6 =>
    obtain ⟨h3', hr⟩ := A.receives ht hv h3
    exact .verbatim (by rw [A.same ht]; exact h1) (A.picks ht h2) h3' (by rw [A.meth _ _ _ _ _ _ hr]; exact h4) h5 h6
  | text h1 h2 h3 h4 h5 =>
    obtain ⟨h3', hr⟩ := A.receives ht hv h3
    exact .text (by rw [A.same ht]; exact h1) (A.picks ht h2) h3' (by rw [A.meth _ _ _ _ _ _ hr]; exact h4) h5
  | layout h1 h2 h3 h4 => exact .layout (by rw [A.same ht]; exact h1) h2 h3 (by rw [A.format]; exact h4)
  | number h1 h2 h3 h4 => exact .number (by rw [A.same ht]; exact h1) h2 h3 h4
  | raw h1 h2 h3 h4 h5 => exact .raw (by rw [A.same ht]; exact h1) h2 h3 h4 h5
  | str h1 h2 h3 h4 => exact .str (A.byKind ht h1) (by rw [A.same ht]; exact h2) h3 h4
  | bytes h1 h2 h3 h4 h5 h6 h7 =>
    exact .bytes (A.byKind ht h1) (by rw [A.same ht]; exact h2) ((A.byteElem (A.types.parts _ _ ht (.slice h2))).mpr h3) h4 h5 h6 h7
  | byteArray h1 h2 h3 h4 h5 h6 h7 =>
    exact .byteArray (A.byKind ht h1) (by rw [A.same ht]; exact h2) ((A.byteElem (A.types.parts _ _ ht (.array h2))).mpr h3) h4 h5 h6 h7

theorem Sharing.spoilsMember (A : Sharing S W W' M M') {t : TId} {ca : Bool} {v : Val} (h : SpoilsMember ws W M o t ca v) (ht : S t) (hv : MadeOf S v) :
    SpoilsMember ws W' M' o t ca v := by
  cases h with
  | keyStr h1 h2 h3 h4 h5 h6 h7 =>
    exact .keyStr (A.byKind ht h1) (by rw [A.same ht]; exact h2) (by rw [A.same (A.types.parts _ _ ht (.key h2))]; exact h3) h4 h5 h6 h7
  | skeyStr h1 h2 h3 h4 h5 h6 =>
    have hd := madeOf_iface (by rw [← h5]; exact (madeOf_smap hv _ h4).1)
    exact .skeyStr (by rw [A.same ht]; exact h1) (by rw [A.same hd.1]; exact h2) h3 h4 h5 h6
  | key h1 h2 h3 h4 h5 h6 h7 h8 =>
    have hk := A.types.parts _ _ ht (.key h2)
    exact .key (A.byKind ht h1) (by rw [A.same ht]; exact h2) (by rw [A.same hk]; exact h3) h4 (A.oddKey h5 hk)
      (by rw [A.isPtr hk]; exact h6) (A.keyWrites h7 hk (madeOf_map hv _ h4).1) h8
  | skey h1 h2 h3 h4 h5 h6 h7 =>
    have hm := (madeOf_smap hv _ h3).1
    rw [h4] at hm
    have hd := (madeOf_iface hm).1
    exact .skey (by rw [A.same ht]; exact h1) (by rw [A.same hd]; exact h2) h3 h4 (by rw [A.same hd]; exact A.oddKey h5 hd)
      (A.syncKeyWrites h6 hm) h7
  | comma h1 h2 h3 h4 h5 h6 h7 h8 h9 h10 h11 h12 h13 =>
    have hc : ∀ {m}, ChosenField W'.U.isLetter W'.U.isDigit W'.E t m ↔ ChosenField W.U.isLetter W.U.isDigit W.E t m := by
      intro m; rw [A.tab]; exact A.types.chosen ht
    have g3 := A.chosen_in ht h3
    have g9 := A.chosen_in ht h9
    exact .comma (A.byKind ht h1) ((A.types.isStruct ht).mpr h2) (hc.mpr h3) h4 (fun m0 h => h5 m0 (hc.mp h)) h6
      (A.writes h7 g3 (madeOf_field hv h6)) ((A.nullDropped g3).mpr h8) (hc.mpr h9) h10 h11 (A.writes h12 g9 (madeOf_field hv h11))
      (mt (A.nullDropped g9).mp h13)

end Jettison.Proofs
