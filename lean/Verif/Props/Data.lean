import Verif.Spec.Data
import Verif.Props.Loosened
import Verif.Props.Document
import Verif.Proofs.Lossless

/-!
# C85: a value stands for the same data as its generic form
-/

namespace Jettison.Props
open Jettison Jettison.Spec Jettison.Model Jettison.Proofs

variable {W : World} {H : Heap} {M : MethV} {o : EncOpts} {t : TId} {ca q : Bool} {v : Val} {j : Json}

theorem byKind_flag {E : Env} {ca : Bool} (h : ByKind E t true) : ByKind E t ca := ⟨h.special, h.meths, fun _ => h.pmeths rfl⟩

theorem denotes_flag {ca' : Bool} (hf : FlagFree W.E t) (h : Denotes W M o t ca false v j) : Denotes W M o t ca' false v j := by
  rcases hf with hs | ⟨hb, hk⟩
  · cases h with
    | time h1 h2 => exact .time h1 h2
    | duration h1 h2 => exact .duration h1 h2
    | number0 h1 => exact .number0 h1
    | number h1 h2 => exact .number h1 h2
    | rawNil h1 => exact .rawNil h1
    | raw h1 h2 h3 => exact .raw h1 h2 h3
    | smap h1 h2 h3 h4 h5 => exact .smap h1 h2 h3 h4 h5
    | _ => first | contradiction | exact absurd (ByKind.special ‹_›) hs
  · have hb' : ByKind W.E t ca := byKind_flag hb
    have hc : ByKind W.E t ca' := byKind_flag hb
    cases h with
    | bool _ h1 => exact .bool hc h1
    | int _ h1 h2 => exact .int hc h1 h2
    | float _ h1 h2 => exact .float hc h1 h2
    | str _ h1 h2 => exact .str hc h1 h2
    | bytesNil _ h1 h2 h3 => exact .bytesNil hc h1 h2 h3
    | bytes _ h1 h2 h3 h4 h5 => exact .bytes hc h1 h2 h3 h4 h5
    | rawBytes _ h1 h2 h3 h4 h5 => exact .rawBytes hc h1 h2 h3 h4 h5
    | sliceNil _ h1 h2 h3 => exact .sliceNil hc h1 h2 h3
    | sliceNil0 _ h1 h2 => exact .sliceNil0 hc h1 h2
    | slice _ h1 h2 h3 h4 => exact .slice hc h1 h2 h3 h4
    | struct _ hst =>
      obtain ⟨fs, hst⟩ := hst
      simp only [HasFields] at hst
      rw [hst] at hk
      rcases hk with hk | ⟨_, hk⟩ <;> cases hk
    | methNil _ h1 => exact (picks_byKind h1 hb').elim
    | meth _ h1 => exact (picks_byKind h1 hb').elim
    | ptrNil _ h1 | ptr _ h1 | iface _ h1 | byteArray _ h1 | array _ h1 | mapNil _ h1 | mapNil0 _ h1 | map _ h1 =>
      rw [h1] at hk; rcases hk with hk | ⟨_, hk⟩ <;> cases hk
    | time h1 | duration h1 | number0 h1 | number h1 | rawNil h1 | raw h1 | smap h1 => rw [hb.special] at h1; cases h1

theorem dyn_denotes (h : DynType W.E t) : Denotes W M o t ca false v j ↔ HeldDenotes W M o v j := by
  obtain ⟨⟨k, hk⟩, hb⟩ := h
  have hc : ByKind W.E t ca := byKind_flag hb
  constructor
  · intro h
    cases h with
    | iface _ _ h => exact h
    | struct _ hst => exact absurd hst (not_struct hk (by simp))
    | _ => byKindRest hc
  · exact .iface hc hk

theorem list_denotes {t' : TId} {w : Val} {ys : List Val} {js : List Json} (hl : AnyList W.E t' w ys) (h1 : js.length = ys.length)
    (h2 : ∀ (i : Nat) y j, ys[i]? = some y → js[i]? = some j → HeldDenotes W M o y j) : HeldDenotes W M o (.iface t' w) (.arr js) := by
  obtain ⟨hb, e, he, ⟨hk, rfl⟩ | ⟨n, hk, rfl⟩⟩ := hl
  · refine .val ?_
    rw [hk]
    exact .slice hb hk (dyn_elem he) h1 fun i y j hy hj => (dyn_denotes he).mpr (h2 i y j hy hj)
  · refine .val ?_
    rw [hk]
    exact .array hb hk (fun h => absurd h (dyn_elem he)) h1 fun i y j hy hj => (dyn_denotes he).mpr (h2 i y j hy hj)

theorem map_flag {E : Env} {t k e : TId} (h : (E t).kind = .map k e) : isPtrK (E t).kind = false := by rw [h]; rfl

/-- C85: the data of a value is data of its generic form. -/
theorem C85_data {y : Val} (hu : Untyped W o t ca v y) (h : Denotes W M o t ca false v j) : HeldDenotes W M o y j := by
  induction hu generalizing j with
  | same hi hc =>
    rcases hc with rfl | hc
    · exact .val h
    · exact .val (denotes_flag hc h)
  | heldNil hd => exact (dyn_denotes hd).mp h
  | held hd _ ih =>
    cases (dyn_denotes hd).mp h with
    | val h => exact ih h
  | ptrNil hk hb =>
    rcases inv_ptr hb hk h with ⟨-, rfl⟩ | ⟨_, hv, -⟩
    · exact .nil
    · cases hv
  | ptr hk hb _ ih =>
    rcases inv_ptr hb hk h with ⟨hv, -⟩ | ⟨_, hv, h⟩ <;> cases hv
    exact ih h
  | sliceNil hk hb he hk' hb' he' =>
    refine .val ?_
    rw [hk']
    cases h with
    | sliceNil _ _ _ h => exact .sliceNil hb' hk' (dyn_elem he') h
    | sliceNil0 _ _ h => exact .sliceNil0 hb' hk' h
    | bytesNil _ hk2 h1 => rw [hk] at hk2; cases hk2; exact absurd h1 he
    | struct _ hst => exact absurd hst (not_struct hk (by simp))
    | _ => byKindRest hb
  | @slice t ca e t' vs w ys hk hb he hl hlen _ ih =>
    have key : ∃ js, j = .arr js ∧ js.length = vs.length ∧ ∀ (i : Nat) v j, vs[i]? = some v → js[i]? = some j → Denotes W M o e true false v j := by
      cases h with
      | slice _ hk2 _ h1 h2 => rw [hk] at hk2; cases hk2; exact ⟨_, rfl, h1, h2⟩
      | bytes _ hk2 h1 => rw [hk] at hk2; cases hk2; exact absurd h1 he
      | rawBytes _ hk2 h1 => rw [hk] at hk2; cases hk2; exact absurd h1 he
      | struct _ hst => exact absurd hst (not_struct hk (by simp))
      | _ => byKindRest hb
    obtain ⟨js, rfl, h1, h2⟩ := key
    refine list_denotes hl (h1.trans hlen.symm) fun i y j hy hj => ?_
    obtain ⟨x, hx⟩ := elem_beside hlen.symm hy
    exact ih i x y hx hy (h2 i x j hx hj)
  | @array t ca n e t' vs w ys hk hb he hl hlen _ ih =>
    rcases inv_array hb hk h with ⟨_, _, _, -, -, h, -⟩ | ⟨_, js, hv, rfl, h1, h2⟩
    · exact absurd h he
    cases hv
    refine list_denotes hl (h1.trans hlen.symm) fun i y j hy hj => ?_
    obtain ⟨x, hx⟩ := elem_beside hlen.symm hy
    exact ih i x y hx hy (h2 i x j hx hj)
  | mapNil hk hb hm =>
    obtain ⟨hb', e', hk', he'⟩ := hm
    refine .val ?_
    rw [map_flag hk']
    cases h with
    | mapNil _ _ h => exact .mapNil hb' hk' h
    | mapNil0 _ _ h => exact .mapNil0 hb' hk' h
    | struct _ hst => exact absurd hst (not_struct hk (by simp))
    | _ => byKindRest hb
  | @map t ca k e t' kvs kvs' hk hb hm hkeys _ ih =>
    obtain ⟨hb', e', hk', he'⟩ := hm
    have key : ∃ ms ms', j = .obj ms' ∧ ms.length = kvs.length ∧
        (∀ (i : Nat) kv m, kvs[i]? = some kv → ms[i]? = some m → KeyDenotes W M o k false kv.1 m.1) ∧
        (∀ (i : Nat) kv m, kvs[i]? = some kv → ms[i]? = some m → Denotes W M o e false false kv.2 m.2) ∧ ms'.Perm ms := by
      cases h with
      | map _ hk2 h1 h2 h3 h4 => rw [hk] at hk2; cases hk2; exact ⟨_, _, rfl, h1, h2, h3, h4⟩
      | struct _ hst => exact absurd hst (not_struct hk (by simp))
      | _ => byKindRest hb
    obtain ⟨ms, ms', rfl, h1, h2, h3, h4⟩ := key
    have hlen : kvs'.length = kvs.length := by simpa using congrArg List.length hkeys
    refine .val ?_
    rw [map_flag hk']
    refine .map hb' hk' (h1.trans hlen.symm) ?_ ?_ h4
    all_goals
      intro i y m hy hm
      obtain ⟨x, hx⟩ := elem_beside hlen.symm hy
    · have e := congrArg (fun l => l[i]?) hkeys
      simp only [List.getElem?_map, hx, hy, Option.map_some, Option.some.injEq] at e
      rw [e]
      exact h2 i x m hx hm
    · exact (dyn_denotes he').mpr (ih i x y hx hy (h3 i x m hx hm))
  | @struct t ca t' v kvs shown hs hb hA hsh hE hlen hn _ ih =>
    obtain ⟨l, kept, q', x, f, a1, a2, a3, a4, a5, a6, rfl⟩ := inv_struct hb hs h
    obtain ⟨b2, l', b1, b3⟩ := hsh
    cases membersOf_unique a1 b1
    obtain ⟨hb', k, e, hk, hks, he⟩ := hA
    have hin : ∀ m, m ∈ kept ↔ m ∈ shown := fun m => by
      rw [b3]
      exact ⟨fun h => ⟨a2.subset h, (a3 m (a2.subset h)).mp h⟩, fun h => (a3 m h.1).mpr h.2⟩
    have hperm : kept.Perm shown := (List.perm_ext_iff_of_nodup ((membersOf_nodup a1).sublist a2) b2).mpr hin
    refine .val ?_
    rw [map_flag hk]
    refine .map (ms := shown.map fun m => (m.name, f m)) hb' hk (by rw [List.length_map, hlen]) ?_ ?_ (hperm.map _)
    all_goals
      intro i kv m hi hj
      rw [List.getElem?_map, Option.map_eq_some_iff] at hj
      obtain ⟨m, hj, rfl⟩ := hj
      have hm := List.mem_of_getElem? hj
      have hm' := (hin m).mpr hm
    · rw [hn i m kv hj hi]
      exact .str hks (hE m hm).2.1
    · refine (dyn_denotes he).mpr (ih i m kv _ hj hi (a4 m hm') ?_)
      have h6 := a6 m hm'
      have hq : q' m = false := by
        cases h : q' m with
        | false => rfl
        | true => exact absurd ((a5 m hm').mp h) (hE m hm).1
      rwa [hq] at h6

/-- C85 for the calls: what they return without error for a value is a text of data of its generic form. -/
theorem C85_calls_partial (D : DocReady W H M o) {w : Addr} (hx : ReprE W.E H.mem (some (t, w)) (.iface t v)) (hf : AllFine W M o t v) {y : Val}
    (hu : Untyped W o t (isPtrK (W.E t).kind) v y) {opts : List (Option Opt)} (ho : prepare opts = .ok o) {n : Nat} :
    (∀ b, marshalOpts W H n (some (t, w)) opts = .ret (some b) none → ∃ j, CompactText j b ∧ HeldDenotes W M o y j) ∧
    (∀ dst out, appendOpts W H n dst (some (t, w)) opts = .ret (some out) none → ∃ j b, out = dst ++ b ∧ CompactText j b ∧ HeldDenotes W M o y j) := by
  obtain ⟨h1, h2⟩ := C30_document_partial D hx hf ho (n := n)
  constructor
  · intro b h
    obtain ⟨j, k1, k2⟩ := h1 b h
    exact ⟨j, k1, C85_data hu k2⟩
  · intro dst out h
    obtain ⟨j, b, k0, k1, k2⟩ := h2 dst out h
    exact ⟨j, b, k0, k1, C85_data hu k2⟩

end Jettison.Props
