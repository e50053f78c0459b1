import Verif.Spec.Recast
import Verif.Props.RespellAdd

/-!
# C80: options about form change the data only where they are about it

Two calls whose options differ in spelling and form only, and that succeed, write JSON texts of trees
with the same members, elements and leaves, but for nil maps and slices, bytes, times and durations,
each only if the options about them differ (`Recast`, Spec/Recast).
-/

namespace Jettison.Props
open Jettison Jettison.Model Jettison.Spec Jettison.Proofs

variable {W : World} {M : MethV} {o o' : EncOpts} {t : TId} {ca q : Bool} {v : Val} {b b' : Bytes}

/-! ## Trees -/

theorem recast_eq (h : b = b') (hf : Formed Ws b) : RecastTree W o o' b b' := by
  obtain ⟨j, hj⟩ := formed_json.mp hf
  exact ⟨j, j, hj, h ▸ hj, .same _⟩

theorem recast_str {r r' : Bytes} (h : ∃ c, unescape r = some c ∧ unescape r' = some c) : RecastTree W o o' (b! "\"" ++ r ++ b! "\"") (b! "\"" ++ r' ++ b! "\"") := by
  obtain ⟨c, h1, h2⟩ := h
  exact ⟨_, _, tree_str h1, tree_str h2, .same _⟩

theorem recast_arr {bs bs' : List Bytes} (hl : bs'.length = bs.length) (h : ∀ (i : Nat) x y, bs[i]? = some x → bs'[i]? = some y → RecastTree W o o' x y) :
    RecastTree W o o' (b! "[" ++ commas bs ++ b! "]") (b! "[" ++ commas bs' ++ b! "]") := by
  obtain ⟨ts, rfl, rfl, h3⟩ := pair_up (R := fun x y (z : Json × Json) => JsonText z.1 x ∧ JsonText z.2 y ∧ Recast W o o' z.1 z.2) hl fun i x y hx hy => by
    obtain ⟨j, j', h1, h2, h3⟩ := h i x y hx hy
    exact ⟨(j, j'), h1, h2, h3⟩
  refine ⟨_, _, tree_arr (j := fun t => t.2.2.1) fun t ht => (h3 t ht).1, tree_arr (j := fun t => t.2.2.2) fun t ht => (h3 t ht).2.1, ?_⟩
  have := Recast.arr (l := ts.map fun t => t.2.2) fun x hx => by
    obtain ⟨t, ht, rfl⟩ := List.mem_map.mp hx
    exact (h3 t ht).2.2
  simpa [List.map_map, Function.comp_def] using this

/-- Entries with the same keys and data, in some order. -/
theorem recast_obj {ms ms' mt mt' : List (Bytes × Bytes)} (hl : ms'.length = ms.length)
    (h : ∀ (i : Nat) x y, ms[i]? = some x → ms'[i]? = some y → (∃ c, KeyText c x.1 ∧ KeyText c y.1) ∧ RecastTree W o o' x.2 y.2)
    (hp : mt.Perm ms) (hp' : mt'.Perm ms') : RecastTree W o o' (objectOf mt) (objectOf mt') := by
  obtain ⟨ts, e1, e2, h3⟩ := pair_up (R := fun x y (z : Bytes × Json × Json) => KeyText z.1 x.1 ∧ KeyText z.1 y.1 ∧ JsonText z.2.1 x.2 ∧ JsonText z.2.2 y.2 ∧ Recast W o o' z.2.1 z.2.2) hl
    fun i x y hx hy => by
      obtain ⟨⟨c, h1, h2⟩, j, j', h3, h4, h5⟩ := h i x y hx hy
      exact ⟨(c, j, j'), h1, h2, h3, h4, h5⟩
  obtain ⟨ts1, p1, rfl⟩ := perm_lift hp e1.symm
  obtain ⟨ts2, p2, rfl⟩ := perm_lift hp' e2.symm
  unfold objectOf
  rw [List.map_map, List.map_map]
  refine ⟨_, _, tree_obj (k := fun t => t.1.1) (s := fun t => t.1.2) (c := fun t => t.2.2.1) (j := fun t => t.2.2.2.1) fun t ht => ?_,
    tree_obj (k := fun t => t.2.1.1) (s := fun t => t.2.1.2) (c := fun t => t.2.2.1) (j := fun t => t.2.2.2.2) fun t ht => ?_, ?_⟩
  · have := h3 t (p1.mem_iff.mp ht)
    exact ⟨this.1, this.2.2.1, rfl⟩
  · have := h3 t (p2.mem_iff.mp ht)
    exact ⟨this.2.1, this.2.2.2.1, rfl⟩
  · refine .obj (l := ts.map fun t => t.2.2) ?_ ?_ fun x hx => ?_
    · simpa [List.map_map, Function.comp_def] using p1.map _
    · simpa [List.map_map, Function.comp_def] using p2.map _
    · obtain ⟨t, ht, rfl⟩ := List.mem_map.mp hx
      exact (h3 t ht).2.2.2.2

theorem leaf_tree (h : IsNumber b ∨ ∃ t c, unescape t = some c ∧ b = b! "\"" ++ t ++ b! "\"") : ∃ j, JsonText j b ∧ Scalar j := by
  rcases h with h | ⟨t, c, h1, rfl⟩
  · exact ⟨_, tree_val (.num _ h), .inr ⟨_, rfl⟩⟩
  · exact ⟨_, tree_str h1, .inl ⟨_, rfl⟩⟩

theorem elems_tree {bs : List Bytes} (h : ∀ y ∈ bs, ∃ j, JsonText j y) : ∃ js, JsonText (.arr js) (b! "[" ++ commas bs ++ b! "]") ∧ js.length = bs.length := by
  obtain ⟨f, hf⟩ := exists_fun Json.null h
  have := tree_arr (s := id) hf
  exact ⟨bs.map f, by simpa using this, by simp⟩

theorem asBytes_length {vs : List Val} {x : Bytes} (h : AsBytes vs x) : vs.length = x.length := by rw [h]; simp

theorem base64_self {x a : Bytes} (h : IsBase64 x a) : unescape a = some a := unescape_plain _ (base64_plainBytes h)

theorem _root_.Jettison.Spec.FormAlike.leftOut (A : FormAlike o o') {m : MField} : LeftOut o v m ↔ LeftOut o' v m := by unfold LeftOut; rw [A.allow, A.deny]

theorem _root_.Jettison.Spec.NoNativeKeys.part {t' : TId} {v' : Val} (h : NoNativeKeys W t v) (hw : Within W.E t v t' v') : NoNativeKeys W t' v' :=
  ⟨fun t'' k e kvs h' => h.key t'' k e kvs (within_trans hw h'), fun t'' kvs kv d x h' => h.skey t'' kvs kv d x (within_trans hw h')⟩

/-! ## Values -/

def RecastBelow (W : World) (M : MethV) (o o' : EncOpts) (n : Nat) : Prop :=
  ∀ t ca q v b b', sizeOf v < n → HasType W.E t v → Unspoilt Ws W M o t ca v → Unspoilt Ws W M o' t ca v → Settled W o t v → SameTimes o o' ∨ NoNativeKeys W t v → Writes W M o t ca q v b → Writes W M o' t ca q v b' → RecastTree W o o' b b'

set_option maxHeartbeats 1000000 in
theorem recast_step (hl : FormatContract W.fmt) (hU : TablesOk W.U.isLetter W.U.isDigit) (hN : GoNames W.U.isLetter W.U.isDigit W.E)
    (G : GoTypes W.E W.ptrTo) (hP : PathFree M) (A : FormAlike o o') {n : Nat} (ih : RecastBelow W M o o' n) (hn : sizeOf v = n)
    (ht : HasType W.E t v) (hu : Unspoilt Ws W M o t ca v) (hu' : Unspoilt Ws W M o' t ca v) (hS : Settled W o t v)
    (hK : SameTimes o o' ∨ NoNativeKeys W t v) (h : Writes W M o t ca q v b) (h' : Writes W M o' t ca q v b') :
    RecastTree W o o' b b' := by
  have self' : ¬ Spoils Ws W M o' t ca v := fun h => hu' _ _ _ .refl (.inl h)
  have self : ¬ Spoils Ws W M o t ca v := fun h => hu _ _ _ .refl (.inl h)
  have selfM : ¬ SpoilsMember Ws W M o t ca v := fun h => hu _ _ _ .refl (.inr h)
  have formed := unspoilt_formed hl hU hN G ht hu h
  have part : ∀ {t' : TId} {v' : Val} {ca' q : Bool} {b b' : Bytes}, Encodes1 W o t ca v t' ca' v' → Encodes1 W o' t ca v t' ca' v' → sizeOf v' < sizeOf v →
      Writes W M o t' ca' q v' b → Writes W M o' t' ca' q v' b' → RecastTree W o o' b b' := fun hp hp' hs h h' =>
    ih _ _ _ _ _ _ (hn ▸ hs) (encodes1_within G ht hp).1 (hu.part hp) (hu'.part hp') (hS.part (encodes1_within G ht hp).2)
      (hK.imp id fun h => h.part (encodes1_within G ht hp).2) h h'
  cases hs : (W.E t).special with
  | some s =>
    by_cases hsm : s = .syncMap
    · subst hsm
      obtain ⟨kvs, ms, ms', rfl, rfl, h1, h2, h3, h4, h5⟩ := w_smap hs h
      obtain ⟨kvs', mt, mt', e, rfl, h1', h2', h3', h4', h5'⟩ := w_smap hs h'
      cases e
      have small : ∀ {kv : Val × Val}, kv ∈ kvs → sizeOf kv.1 < sizeOf (Val.smap kvs) ∧ sizeOf kv.2 < sizeOf (Val.smap kvs) := by
        intro kv hkv
        have := List.sizeOf_lt_of_mem hkv
        have e : sizeOf kv = 1 + sizeOf kv.1 + sizeOf kv.2 := by cases kv; simp
        simp only [Val.smap.sizeOf_spec]
        omega
      have hdyn : ∀ kv ∈ kvs, ∃ d x, kv.2 = .iface d x := by
        intro kv hkv
        have hx : InIface W.E kv.2 := by
          cases ht with
          | smap _ _ hx => exact hx kv hkv
          | iface _ hx => cases hx
        rcases inIface_cases hx with e | ⟨d, x, e, -⟩
        · exact absurd e (h4 kv hkv)
        · exact ⟨d, x, e⟩
      have hboth := texts_both (R := fun (kv : Val × Val) (m : Bytes × Bytes) => SyncKeyWrites W M o kv.1 m.1 ∧
          ∀ d x, kv.2 = .iface d x → Writes W M o d (isPtrK (W.E d).kind) false x m.2)
          (R' := fun (kv : Val × Val) (m : Bytes × Bytes) => SyncKeyWrites W M o' kv.1 m.1 ∧
          ∀ d x, kv.2 = .iface d x → Writes W M o' d (isPtrK (W.E d).kind) false x m.2)
          (S := fun m m' => (∃ c, KeyText c m.1 ∧ KeyText c m'.1) ∧ RecastTree W o o' m.2 m'.2) h1 h1'
          (fun i kv m ha hb => ⟨h2 i kv m ha hb, fun d x => h3 i kv m d x ha hb⟩) (fun i kv m ha hb => ⟨h2' i kv m ha hb, fun d x => h3' i kv m d x ha hb⟩) (by
        intro kv hkv m m' ⟨a1, a2⟩ ⟨b1, b2⟩
        constructor
        · generalize hkk : kv.1 = key at a1 b1
          generalize m.1 = k1 at a1
          generalize m'.1 = k2 at b1
          have odd := fun d x => hS.skey _ _ _ d x .refl hkv
          rw [hkk] at odd
          have nk : ∀ d x, key = .iface d x → (W.E d).special = none ∨ SameTimes o o' := fun d x e => hK.symm.imp (fun h => h.skey _ _ _ d x .refl hkv (hkk.trans e)) id
          cases a1 with
          | str hks hsp =>
            cases b1 with
            | str _ hsp' =>
              obtain ⟨c, g1, g2⟩ := spelled_same A.esc A.utf8 hsp hsp' fun he hu => selfM (.skeyStr hs hks he hkv hkk hu)
              exact ⟨c, keyText_str g1, keyText_str g2⟩
            | text h => exact absurd hks h
            | quoted h => rw [h] at hks; cases hks
          | @text kt x _ hks htx hwr =>
            cases b1 with
            | str h => exact absurd h hks
            | text _ _ hwr' =>
              have ho := odd _ _ rfl hks
              cases both_key hP (nk _ _ rfl) hks (.inr (.inr htx)) ho hwr hwr'
              obtain ⟨c, hc⟩ := strFormed_key (textKey_formed ws_nil htx (fun h => hu.part (.skey hs hkv hkk (.inr (.inr htx)) hks) _ _ _ .refl (.inl h)) ho hwr)
              exact ⟨c, hc, hc⟩
            | quoted _ h => rw [h] at htx; cases htx
          | @quoted kt ik x c hki htx hwr =>
            have hks : (W.E kt).kind ≠ .string := by simp [hki]
            cases b1 with
            | str h => exact absurd h hks
            | text _ h => rw [h] at htx; cases htx
            | quoted _ _ hwr' =>
              have ho := odd _ _ rfl hks
              have hca : isPtrK (W.E kt).kind = false := by rw [hki]; rfl
              rw [hca] at ho hwr hwr'
              cases both_key hP (nk _ _ rfl) hks (.inr (.inl ⟨_, hki⟩)) ho hwr hwr'
              obtain ⟨c, hc⟩ := strFormed_key (quoted_plain ws_nil (number_plain (intKey_number hl hki htx ho hwr)))
              exact ⟨c, hc, hc⟩
        · obtain ⟨d, x, e⟩ := hdyn kv hkv
          exact part (.selem hs hkv e) (.selem hs hkv e) (by have := (small hkv).2; rw [e] at this; simp only [Val.iface.sizeOf_spec] at this; omega) (a2 d x e) (b2 d x e))
      exact recast_obj hboth.1 hboth.2 h5.1 h5'.1
    · by_cases hsr : s = .rawMessage
      · subst hsr
        rcases w_raw hs h with ⟨rfl, rfl⟩ | ⟨vs, x, rfl, h1, h2⟩ <;> rcases w_raw hs h' with ⟨e, rfl⟩ | ⟨vs', x', e, h1', h2'⟩ <;> cases e
        · exact recast_eq rfl formed
        · rw [← asBytes_unique h1 h1'] at h2'
          obtain ⟨j, hj⟩ := hS.raw _ _ _ .refl hs h1
          exact ⟨j, j, copied_tree h2 hj, copied_tree h2' hj, .same _⟩
      · by_cases hT : SameTimes o o'
        · exact recast_eq (both_special hT hs hsm hsr h h') formed
        · cases s with
          | time =>
            obtain ⟨x, rfl, -, h1⟩ := w_time hs h
            obtain ⟨x', e, -, h2⟩ := w_time hs h'
            cases e
            obtain ⟨j, k1, k2⟩ := leaf_tree ((time_formed hs self h1).imp (fun h => h.2) fun h => h.2)
            obtain ⟨j', k1', k2'⟩ := leaf_tree ((time_formed hs self' h2).imp (fun h => h.2) fun h => h.2)
            exact ⟨j, j', k1, k1', .time hT h1 k1 k2 h2 k1' k2'⟩
          | duration =>
            obtain ⟨x, rfl, h1⟩ := w_duration hs h
            obtain ⟨x', e, h2⟩ := w_duration hs h'
            cases e
            have leaf : ∀ {o : EncOpts} {b : Bytes}, DurationText W o x b → IsNumber b ∨ ∃ t c, unescape t = some c ∧ b = b! "\"" ++ t ++ b! "\"" := fun h => by
              rcases durationText_formed hl h with ⟨-, t, h1, h2⟩ | ⟨-, h⟩
              · exact .inr ⟨t, t, h1, h2⟩
              · exact .inl h
            obtain ⟨j, k1, k2⟩ := leaf_tree (leaf h1)
            obtain ⟨j', k1', k2'⟩ := leaf_tree (leaf h2)
            exact ⟨j, j', k1, k1', .duration hT h1 k1 k2 h2 k1' k2'⟩
          | number =>
            obtain ⟨x, rfl, h1⟩ := w_number hs h
            obtain ⟨x', e, h2⟩ := w_number hs h'
            cases e
            exact recast_eq (by rw [h1, h2]) formed
          | rawMessage => exact absurd rfl hsr
          | syncMap => exact absurd rfl hsm
  | none =>
    rcases picks_or_byKind (ca := ca) hs with hb | ⟨m, hm⟩
    · by_cases hk : isBasicK (W.E t).kind = true
      · by_cases hks : (W.E t).kind = .string
        · cases q with
          | false =>
            rcases w_scalar hb hk h with ⟨x, rfl, h1⟩ | ⟨x, rfl, h1⟩ | ⟨w, x, rfl, h1⟩ | ⟨s, c, rfl, h1, rfl⟩ <;>
              rcases w_scalar hb hk h' with ⟨x', e, h1'⟩ | ⟨x', e, h1'⟩ | ⟨w', x', e, h1'⟩ | ⟨s', c', e, h1', rfl⟩ <;> cases e
            · exact recast_eq (by rw [h1, h1']) formed
            · exact recast_eq (intLiteral_unique h1 h1') formed
            · exact recast_eq (floatText_unique h1 h1') formed
            · exact recast_str (spelled_same A.esc A.utf8 h1 h1' fun he hu => self (.str hb hks he hu))
          | true =>
            rcases w_quoted hb hk h with ⟨h1, -⟩ | ⟨-, s, c, rfl, h2, rfl⟩
            · exact absurd hks h1
            rcases w_quoted hb hk h' with ⟨h1, -⟩ | ⟨-, s', c', e, h2', rfl⟩
            · exact absurd hks h1
            cases e
            obtain ⟨c, g1, g2⟩ := spelled_same A.esc A.utf8 h2 h2' fun he hu => self (.str hb hks he hu)
            have := recast_str (W := W) (o := o) (o' := o') ⟨_, unescape_quoted g1, unescape_quoted g2⟩
            simpa using this
        · cases q with
          | false => exact recast_eq (both_scalar hb hk hks h h') formed
          | true =>
            rcases w_quoted hb hk h with ⟨-, c, h2, rfl⟩ | ⟨h1, -⟩
            · rcases w_quoted hb hk h' with ⟨-, c', h2', rfl⟩ | ⟨h1, -⟩
              · exact recast_eq (by rw [both_scalar hb hk hks h2 h2']) formed
              · exact absurd h1 hks
            · exact absurd h1 hks
      · cases hkk : (W.E t).kind with
        | bool | int | float | string => rw [hkk] at hk; exact absurd rfl hk
        | other => exact absurd hkk (w_kind hb h)
        | ptr e =>
          rcases w_ptr hb hkk h with ⟨rfl, rfl⟩ | ⟨x, rfl, h1⟩ <;> rcases w_ptr hb hkk h' with ⟨e, rfl⟩ | ⟨x', e, h1'⟩ <;> cases e
          · exact recast_eq rfl formed
          · exact part (.ptr hb hkk) (.ptr hb hkk) (by simp) h1 h1'
        | iface k =>
          have := w_tag hb hk (by simp [hkk]) h
          subst this
          rcases w_iface hb hkk h with ⟨rfl, rfl⟩ | ⟨d, x, rfl, h1⟩ <;> rcases w_iface hb hkk h' with ⟨e, rfl⟩ | ⟨d', x', e, h1'⟩ <;> cases e
          · exact recast_eq rfl formed
          · exact part (.iface hb hkk) (.iface hb hkk) (by simp only [Val.iface.sizeOf_spec]; omega) h1 h1'
        | slice e =>
          have := w_tag hb hk (by simp [hkk]) h
          subst this
          by_cases he : ByteElem W.E e
          · rcases w_bytes hb hkk he h with ⟨rfl, rfl⟩ | ⟨vs, x, c, rfl, rfl, h1, h2⟩ <;>
              rcases w_bytes hb hkk he h' with ⟨e, rfl⟩ | ⟨vs', x', c', e, rfl, h1', h2'⟩ <;> cases e
            · exact recast_eq rfl formed
            · rw [← asBytes_unique h1 h1'] at h2'
              rcases h2 with ⟨f, h2⟩ | ⟨f, h2⟩ <;> rcases h2' with ⟨f', h2'⟩ | ⟨f', h2'⟩
              · exact recast_eq (by rw [base64_unique h2 h2']) formed
              · obtain ⟨c2, k1, -⟩ := spelled_same rfl rfl h2' h2' fun hes hu => self' (.bytes hb hkk he f' hes h1 hu)
                exact ⟨_, _, tree_str (base64_self h2), tree_str k1, .bytesRaw f f' h2 ⟨_, h2', k1⟩⟩
              · obtain ⟨c2, k1, -⟩ := spelled_same rfl rfl h2 h2 fun hes hu => self (.bytes hb hkk he f hes h1 hu)
                exact ⟨_, _, tree_str k1, tree_str (base64_self h2'), .bytesBase64 f f' ⟨_, h2, k1⟩ h2'⟩
              · exact recast_str (spelled_same A.esc A.utf8 h2 h2' fun hes hu => self (.bytes hb hkk he f hes h1 hu))
          · rcases w_slice hb hkk he h with ⟨rfl, rfl⟩ | ⟨vs, bs, rfl, rfl, h1, h2⟩ <;>
              rcases w_slice hb hkk he h' with ⟨e, rfl⟩ | ⟨vs', bs', e, rfl, h1', h2'⟩ <;> cases e
            · cases f : bmHas o.flags .nilSliceEmpty <;> cases f' : bmHas o'.flags .nilSliceEmpty
              · exact ⟨_, _, tree_val .null, tree_val .null, .same _⟩
              · exact ⟨_, _, tree_val .null, tree_val (.arr0 [] ws_nil), .sliceEmpty f f'⟩
              · exact ⟨_, _, tree_val (.arr0 [] ws_nil), tree_val .null, .sliceNull f f'⟩
              · exact ⟨_, _, tree_val (.arr0 [] ws_nil), tree_val (.arr0 [] ws_nil), .same _⟩
            · obtain ⟨g1, g2⟩ := texts_both (S := RecastTree W o o') h1 h1' h2 h2' fun x hx y y' ha hb' => part (.slice hb hkk he hx) (.slice hb hkk he hx) (by
                have := List.sizeOf_lt_of_mem hx
                simp only [Val.slice.sizeOf_spec]
                omega) ha hb'
              exact recast_arr g1 g2
        | array k e =>
          have := w_tag hb hk (by simp [hkk]) h
          subst this
          rcases w_array hb hkk h with ⟨vs, x, c, rfl, rfl, g1, g2, g3, g4⟩ | ⟨vs, bs, rfl, rfl, g1, g2, g3⟩ <;>
            rcases w_array hb hkk h' with ⟨vs', x', c', e', rfl, g1', g2', g3', g4'⟩ | ⟨vs', bs', e', rfl, g1', g2', g3'⟩ <;> cases e'
          · rw [← asBytes_unique g3 g3'] at g4'
            exact recast_str (spelled_same A.esc A.utf8 g4 g4' fun hes hu => self (.byteArray hb hkk g1 g2 hes g3 hu))
          · obtain ⟨c2, k1, -⟩ := spelled_same rfl rfl g4 g4 fun hes hu => self (.byteArray hb hkk g1 g2 hes g3 hu)
            obtain ⟨js, k2, k3⟩ := elems_tree (bs := bs') fun y hy => by
              obtain ⟨i, hi⟩ := List.getElem?_of_mem hy
              obtain ⟨z, hz⟩ : ∃ z, vs[i]? = some z := ⟨_, List.getElem?_eq_getElem (by have := (List.getElem?_eq_some_iff.mp hi).1; omega)⟩
              have hmem := List.mem_of_getElem? hz
              have hp : Encodes1 W o' t ca (.array vs) _ ca z := .array hb hkk (fun h => by rw [g1' h.1] at h; cases h.2) hmem
              exact formed_json.mp (unspoilt_formed hl hU hN G (encodes1_within G ht hp).1 (hu'.part hp) (g3' i z y hz hi))
            exact ⟨_, _, tree_str k1, k2, .arrayElems g2 (g1' g1) ⟨_, g4, k1⟩ (by rw [k3, g2', asBytes_length g3])⟩
          · obtain ⟨c2, k1, -⟩ := spelled_same rfl rfl g4' g4' fun hes hu => self' (.byteArray hb hkk g1' g2' hes g3' hu)
            obtain ⟨js, k2, k3⟩ := elems_tree (bs := bs) fun y hy => by
              obtain ⟨i, hi⟩ := List.getElem?_of_mem hy
              obtain ⟨z, hz⟩ : ∃ z, vs[i]? = some z := ⟨_, List.getElem?_eq_getElem (by have := (List.getElem?_eq_some_iff.mp hi).1; omega)⟩
              have hmem := List.mem_of_getElem? hz
              have hp : Encodes1 W o t ca (.array vs) _ ca z := .array hb hkk (fun h => by rw [g1 h.1] at h; cases h.2) hmem
              exact formed_json.mp (unspoilt_formed hl hU hN G (encodes1_within G ht hp).1 (hu.part hp) (g3 i z y hz hi))
            exact ⟨_, _, k2, tree_str k1, .arrayString (g1 g1') g2' (by rw [k3, g2, asBytes_length g3']) ⟨_, g4', k1⟩⟩
          · obtain ⟨f1, f2⟩ := texts_both (S := RecastTree W o o') g2 g2' g3 g3' fun x hx y y' ha hb' =>
              part (.array hb hkk (fun h => by rw [g1 h.1] at h; cases h.2) hx) (.array hb hkk (fun h => by rw [g1' h.1] at h; cases h.2) hx) (by
                have := List.sizeOf_lt_of_mem hx
                simp only [Val.array.sizeOf_spec]
                omega) ha hb'
            exact recast_arr f1 f2
        | map k e =>
          have := w_tag hb hk (by simp [hkk]) h
          subst this
          have hkt := (w_map hb hkk h).1
          rcases (w_map hb hkk h).2 with ⟨rfl, rfl⟩ | ⟨kvs, ms, ms', rfl, rfl, h1, h2, h3, h5⟩ <;>
            rcases (w_map hb hkk h').2 with ⟨e, rfl⟩ | ⟨kvs', mt, mt', e, rfl, h1', h2', h3', h5'⟩ <;> cases e
          · cases f : bmHas o.flags .nilMapEmpty <;> cases f' : bmHas o'.flags .nilMapEmpty
            · exact ⟨_, _, tree_val .null, tree_val .null, .same _⟩
            · exact ⟨_, _, tree_val .null, tree_val (.obj0 [] ws_nil), .mapEmpty f f'⟩
            · exact ⟨_, _, tree_val (.obj0 [] ws_nil), tree_val .null, .mapNull f f'⟩
            · exact ⟨_, _, tree_val (.obj0 [] ws_nil), tree_val (.obj0 [] ws_nil), .same _⟩
          · have small : ∀ {kv : Val × Val}, kv ∈ kvs → sizeOf kv.1 < sizeOf (Val.map kvs) ∧ sizeOf kv.2 < sizeOf (Val.map kvs) := by
              intro kv hkv
              have := List.sizeOf_lt_of_mem hkv
              have e : sizeOf kv = 1 + sizeOf kv.1 + sizeOf kv.2 := by cases kv; simp
              simp only [Val.map.sizeOf_spec]
              omega
            have hboth := texts_both
                (R := fun (kv : Val × Val) (m : Bytes × Bytes) => KeyWrites W M o k kv.1 m.1 ∧ Writes W M o _ false false kv.2 m.2)
                (R' := fun (kv : Val × Val) (m : Bytes × Bytes) => KeyWrites W M o' k kv.1 m.1 ∧ Writes W M o' _ false false kv.2 m.2)
                (S := fun m m' => (∃ c, KeyText c m.1 ∧ KeyText c m'.1) ∧ RecastTree W o o' m.2 m'.2) h1 h1'
                (fun i kv m ha hb => ⟨h2 i kv m ha hb, h3 i kv m ha hb⟩) (fun i kv m ha hb => ⟨h2' i kv m ha hb, h3' i kv m ha hb⟩) (by
              intro kv hkv m m' ⟨a1, a2⟩ ⟨b1, b2⟩
              refine ⟨?_, part (.elem hb hkk hkt hkv) (.elem hb hkk hkt hkv) (small hkv).2 a2 b2⟩
              have nk : (W.E k).special = none ∨ SameTimes o o' := hK.symm.imp (fun h => h.key _ _ _ _ .refl hkk) id
              have odd := fun hks hp => hS.key _ _ _ _ _ .refl hkk hks hkv hp
              have hkp := fun hks hp => hu.part (Encodes1.key (kv := kv) hb hkk hkt hks (fun _ => hp) hkv)
              generalize hkey : kv.1 = key at a1 b1 odd hkp
              generalize m.1 = k1 at a1
              generalize m'.1 = k2 at b1
              cases a1 with
              | str hks hsp =>
                cases b1 with
                | str _ hsp' =>
                  obtain ⟨c, g1, g2⟩ := spelled_same A.esc A.utf8 hsp hsp' fun he hu => selfM (.keyStr hb hkk hks he hkv hkey hu)
                  exact ⟨c, keyText_str g1, keyText_str g2⟩
                | text h | quoted h => exact absurd hks h
              | nilText hks htx hip =>
                cases b1 with
                | nilText => exact ⟨[], keyText_str (kb := []) rfl, keyText_str (kb := []) rfl⟩
                | text _ _ h => exact absurd rfl (h hip)
                | quoted _ h => rw [h] at htx; cases htx
              | text hks htx hnil hwr =>
                cases b1 with
                | str h => exact absurd h hks
                | nilText _ _ h => exact absurd rfl (hnil h)
                | text _ _ _ hwr' =>
                  have ho := odd hks hnil
                  cases both_key hP nk hks hkt ho hwr hwr'
                  obtain ⟨c, hc⟩ := strFormed_key (textKey_formed ws_nil htx (fun h => hkp hks hnil _ _ _ .refl (.inl h)) ho hwr)
                  exact ⟨c, hc, hc⟩
                | quoted _ h => rw [h] at htx; cases htx
              | quoted hks htx hwr =>
                obtain ⟨ik, hki⟩ : ∃ ik, (W.E k).kind = .int ik := by
                  rcases hkt with h | h | h
                  · exact absurd h hks
                  · exact h
                  · rw [htx] at h; cases h
                cases b1 with
                | str h => exact absurd h hks
                | nilText _ h => rw [h] at htx; cases htx
                | text _ h => rw [h] at htx; cases htx
                | quoted _ _ hwr' =>
                  have ho := odd hks (fun ⟨e', h'⟩ => by rw [hki] at h'; cases h')
                  cases both_key hP nk hks hkt ho hwr hwr'
                  obtain ⟨c, hc⟩ := strFormed_key (quoted_plain ws_nil (number_plain (intKey_number hl hki htx ho hwr)))
                  exact ⟨c, hc, hc⟩)
            exact recast_obj hboth.1 hboth.2 h5.1 h5'.1
        | struct fs =>
          have := w_tag hb hk (by simp [hkk]) h
          subst this
          have hst : IsStruct W.E t := ⟨fs, hkk⟩
          obtain ⟨l, tried, kept, q', x, c, key, lead, a1, a2, a3, a4, a5, a6, a7, a8, a9, a10, rfl⟩ := w_struct hb hst h
          obtain ⟨l2, tried2, kept2, q2, x2, c2, key2, lead2, b1, b2, b3, b4, b5, b6, b7, b8, b9, b10, rfl⟩ := w_struct hb hst h'
          cases membersOf_unique a1 b1
          have hnd := membersOf_nodup a1
          have chosen : ∀ m ∈ tried, ChosenField W.U.isLetter W.U.isDigit W.E t m ∧ ¬ LeftOut o v m := fun m hm =>
            ⟨(a1.2 m).mp (a2.subset hm), (a3 m (a2.subset hm)).mp hm⟩
          have e1 : tried = tried2 := sublist_unique hnd a2 b2 fun m hm => by rw [a3 m hm, b3 m hm, A.leftOut]
          subst e1
          have nodrop : ∀ m ∈ tried, ∀ b, ¬ NullDropped W.E m b := fun m hm b hd => hS.null _ _ m .refl hst (chosen m hm).1 hd.1 hd.2.1
          have all : ∀ {kept : List MField} {c : MField → Bytes}, kept.Sublist tried → (∀ m ∈ tried, m ∈ kept ↔ ¬ NullDropped W.E m (c m)) → kept = tried := by
            intro kept c h1 h2
            exact sublist_unique (hnd.sublist a2) h1 (List.Sublist.refl _) fun m hm => by simp [h2 m hm, nodrop m hm, hm]
          cases all a7 a8
          cases all b7 b8
          have lead0 : ∀ {c : Bytes} {kept : List MField}, Lead kept kept c → c = [] := by
            intro c kept h
            cases h with
            | none => rfl
            | comma _ h => exact absurd rfl h
          cases lead0 a10
          cases lead0 b10
          obtain ⟨J, hJ⟩ := exists_fun (γ := Json × Json) (.null, .null) (l := tried) (R := fun m z => JsonText z.1 (c m) ∧ JsonText z.2 (c2 m) ∧ Recast W o o' z.1 z.2) fun m hm => by
            have e1 := fieldAt_unique (a4 m hm) (b4 m hm)
            have e2 : q' m = q2 m := Bool.eq_iff_iff.mpr ((a5 m hm).trans (b5 m hm).symm)
            have w2 := b6 m hm
            rw [← e1, ← e2] at w2
            obtain ⟨j, j', g⟩ := part (.field hb hst (chosen m hm).1 (chosen m hm).2 (a4 m hm)) (.field hb hst (chosen m hm).1 (fun h => (chosen m hm).2 (A.leftOut.mpr h)) (a4 m hm)) (Jettison.Props.fieldAt_size (a4 m hm)) (a6 m hm) w2
            exact ⟨(j, j'), g⟩
          refine ⟨.obj (tried.map fun m => (m.name, (J m).1)), .obj (tried.map fun m => (m.name, (J m).2)), ?_, ?_, ?_⟩
          · have := tree_obj (l := tried) (f := fun m => b! "\"" ++ key m ++ b! "\":" ++ c m) (k := fun m => b! "\"" ++ key m ++ b! "\"") (s := c) (c := fun m => m.name) (j := fun m => (J m).1)
              fun m hm => ⟨keyText_str (namedAs_body hU (chosen_name hN (chosen m hm).1) (a9 m hm)), (hJ m hm).1, by simp⟩
            simpa using this
          · have := tree_obj (l := tried) (f := fun m => b! "\"" ++ key2 m ++ b! "\":" ++ c2 m) (k := fun m => b! "\"" ++ key2 m ++ b! "\"") (s := c2) (c := fun m => m.name) (j := fun m => (J m).2)
              fun m hm => ⟨keyText_str (namedAs_body hU (chosen_name hN (chosen m hm).1) (b9 m hm)), (hJ m hm).2.1, by simp⟩
            simpa using this
          · refine .obj (l := tried.map fun m => (m.name, (J m).1, (J m).2)) ?_ ?_ fun y hy => ?_
            · simp [List.map_map, Function.comp_def]
            · simp [List.map_map, Function.comp_def]
            · obtain ⟨m, hm, rfl⟩ := List.mem_map.mp hy
              exact (hJ m hm).2.2
    · rcases both_called hs hm h h' with ⟨rfl, rfl⟩ | ⟨rt, x, u, g0, g1, g2⟩
      · exact recast_eq rfl formed
      · cases g1 with
        | ctx g1 => cases g2 with | ctx g2 => rw [← A.ctx, hP _ _ _ _ _ _ _, g1] at g2; cases g2; exact recast_eq rfl formed
        | app g1 => cases g2 with | app g2 => rw [hP _ _ _ _ _ _ _, g1] at g2; cases g2; exact recast_eq rfl formed
        | text g1 => cases g2 with | text g2 => rw [hP _ _ _ _ _ _ _, g1] at g2; cases g2; exact recast_eq rfl formed
        | @json _ d _ g1 f1 k1 =>
          cases g2 with
          | json g2 f2 k2 =>
            rw [hP _ _ _ _ _ _ _, g1] at g2
            cases g2
            obtain ⟨j, hj⟩ : ∃ j, JsonText j d := by
              cases k1 with
              | verbatim => exact formed_json.mp formed
              | compact hc => exact f1 hc
            exact ⟨j, j, copied_tree k1 hj, copied_tree k2 hj, .same _⟩

/-- C80: texts written with options that differ in spelling and form hold the same data in these forms. -/
theorem C80_text_partial (hl : FormatContract W.fmt) (hU : TablesOk W.U.isLetter W.U.isDigit) (hN : GoNames W.U.isLetter W.U.isDigit W.E)
    (G : GoTypes W.E W.ptrTo) (hP : PathFree M) (A : FormAlike o o') (ht : HasType W.E t v) (hu : Unspoilt Ws W M o t ca v) (hu' : Unspoilt Ws W M o' t ca v) (hS : Settled W o t v)
    (hK : SameTimes o o' ∨ NoNativeKeys W t v)
    (h : Writes W M o t ca q v b) (h' : Writes W M o' t ca q v b') : RecastTree W o o' b b' := by
  have key : ∀ n, RecastBelow W M o o' n := by
    intro n
    induction n with
    | zero => intro _ _ _ _ _ _ h; exact absurd h (Nat.not_lt_zero _)
    | succ n ihn =>
      intro t ca q v b b' hl' ht hu hu' hS hK h h'
      exact recast_step hl hU hN G hP A (n := sizeOf v) (fun _ _ _ _ _ _ hs => ihn _ _ _ _ _ _ (by omega)) rfl ht hu hu' hS hK h h'
  exact key _ _ _ _ _ _ _ (Nat.lt_succ_self _) ht hu hu' hS hK h h'

/-- C80: two calls whose options differ in spelling and form only, and that succeed, write the same data in these forms. -/
theorem C80_calls_partial {H : Heap} (D : WriteReady W H M) (hN : GoNames W.U.isLetter W.U.isDigit W.E) (hP : PathFree M) {w : Addr}
    (hx : ReprE W.E H.mem (some (t, w)) (.iface t v)) (hf : TimesFine W t v) {opts opts' : List (Option Opt)} (ho : prepare opts = .ok o)
    (ho' : prepare opts' = .ok o') (A : FormAlike o o') (hu : Unspoilt Ws W M o t (isPtrK (W.E t).kind) v) (hu' : Unspoilt Ws W M o' t (isPtrK (W.E t).kind) v)
    (hS : Settled W o t v) (hK : SameTimes o o' ∨ NoNativeKeys W t v) {n n' : Nat} :
    (∀ b b', marshalOpts W H n (some (t, w)) opts = .ret (some b) none → marshalOpts W H n' (some (t, w)) opts' = .ret (some b') none → RecastTree W o o' b b') ∧
    (∀ dst dst' out out', appendOpts W H n dst (some (t, w)) opts = .ret (some out) none →
      appendOpts W H n' dst' (some (t, w)) opts' = .ret (some out') none → ∃ b b', out = dst ++ b ∧ out' = dst' ++ b' ∧ RecastTree W o o' b b') := by
  have ht : HasType W.E t v := by
    cases repr_inIface hx with
    | val h => exact h
  have main := fun {b b' : Bytes} (h : Writes W M o t (isPtrK (W.E t).kind) false v b) h' =>
    C80_text_partial (b' := b') D.fmt D.ready.tab hN D.ready.types hP A ht hu hu' hS hK h h'
  refine ⟨fun b b' h h' => main ((C56_bytes D hx hf ho).1 b h) ((C56_bytes D hx hf ho').1 b' h'), fun dst dst' out out' h h' => ?_⟩
  obtain ⟨b, rfl, h1⟩ := (C56_bytes D hx hf ho).2 dst out h
  obtain ⟨b', rfl, h2⟩ := (C56_bytes D hx hf ho').2 dst' out' h'
  exact ⟨b, b', rfl, rfl, main h1 h2⟩

/-- C80: with the same options about form the data is the same. -/
theorem C80_same (h1 : bmHas o.flags .nilMapEmpty = bmHas o'.flags .nilMapEmpty) (h2 : bmHas o.flags .nilSliceEmpty = bmHas o'.flags .nilSliceEmpty)
    (h3 : bmHas o.flags .rawByteSlice = bmHas o'.flags .rawByteSlice) (h4 : bmHas o.flags .byteArrayAsString = bmHas o'.flags .byteArrayAsString)
    (h5 : SameTimes o o') {j j' : Json} (h : Recast W o o' j j') : SameData j j' := by
  induction h with
  | same => exact .same _
  | arr _ ih => exact .arr ih
  | obj p p' _ ih => exact .obj p p' ih
  | mapEmpty f f' | mapNull f f' => rw [← h1, f] at f'; cases f'
  | sliceEmpty f f' | sliceNull f f' => rw [← h2, f] at f'; cases f'
  | bytesRaw f f' | bytesBase64 f f' => rw [← h3, f] at f'; cases f'
  | arrayString f f' | arrayElems f f' => rw [← h4, f] at f'; cases f'
  | time hT | duration hT => exact absurd h5 hT

/-- C80: the values that C30 is restricted to are not spoilt by options about form, if the layout given for times makes
texts that need no escapes. -/
theorem C80_fine (G : GoTypes W.E W.ptrTo) (ht : HasType W.E t v) (hf : AllFine W M o t v) (hK : NoNativeKeys W t v) (he : bmHas o'.flags .noStringEscaping = false)
    (hc : bmHas o'.flags .noCompact = true → bmHas o.flags .noCompact = true)
    (hn : bmHas o'.flags .noNumberValidation = true → bmHas o.flags .noNumberValidation = true)
    (hl : ∀ x l, bmHas o'.flags .unixTime = false → o'.layout = .other l → unescape (W.appendFormat x l) ≠ none) : Unspoilt Ws W M o' t ca v := by
  intro t' ca' v' hen
  have hw := encodes_within G hen ht
  have hf' := hf _ _ hw
  rintro (h | h)
  · cases h with
    | append h1 h2 h3 h4 h5 h6 =>
      have := hf'.meth h1 _ _ _ _ _ _ _ _ h2 h4 h5
      rcases h3 with rfl | rfl
      · obtain ⟨j, hj⟩ := this; exact h6 (formed_compact ws_nil hj)
      · obtain ⟨j, hj⟩ := this; exact h6 (formed_compact ws_nil hj)
    | verbatim h1 h2 h4 h5 h6 h7 => obtain ⟨j, hj⟩ := hf'.meth h1 _ _ _ _ _ _ _ _ h2 h4 h5 (hc h6); exact h7 (formed_compact ws_nil hj)
    | text h1 h2 h4 h5 h6 => have := hf'.meth h1 _ _ _ _ _ _ _ _ h2 h4 h5; rw [MethFine, h6] at this; cases this
    | layout h1 h2 h3 h4 => exact hl _ _ h2 h3 h4
    | number h1 h2 h3 h4 =>
      rcases hf'.number _ h1 rfl (hn h2) with h | h
      · exact h3 h
      · exact h4 (formed_val ws_nil (Gr.num _ h))
    | raw h1 h2 h3 h4 h5 =>
      obtain ⟨j, h6, h7⟩ := hf'.raw _ _ h1 rfl h2
      cases hc' : bmHas o'.flags .noCompact with
      | true =>
        cases h3 with
        | verbatim => exact h5 (formed_compact ws_nil (h7 (hc hc')))
        | compact h => rw [h] at hc'; cases hc'
      | false => exact h4 hc' j h6
    | str _ _ h => rw [he] at h; cases h
    | bytes _ _ _ _ h => rw [he] at h; cases h
    | byteArray _ _ _ _ h => rw [he] at h; cases h
  · have even : ∀ {k : TId} {ca : Bool} {x : Val}, (W.E k).special = none → OddKey W o' k ca x → OddKey W o k ca x := by
      intro k ca x hs ho
      cases ho with
      | native h => rw [hs] at h; cases h
      | method h1 h2 h3 => exact .method h1 h2 h3
      | nilText h1 h2 h3 => exact .nilText h1 h2 h3
    cases h with
    | keyStr _ _ _ h => rw [he] at h; cases h
    | skeyStr _ _ h => rw [he] at h; cases h
    | key _ h1 h2 h3 h4 h5 => exact keyFine_even (hf'.key _ _ _ _ h1 rfl h3) h5 h2 (.inl rfl) (even (hK.key _ _ _ _ hw h1) h4)
    | skey h1 h2 h3 h4 h5 =>
      obtain ⟨g1, g2⟩ := hf'.skey _ _ _ _ rfl h3 h4
      exact keyFine_even g1 g2 h2 (.inr rfl) (even (hK.skey _ _ _ _ _ hw h3 h4) h5)
    | comma _ h1 h2 _ _ _ _ h3 => exact hf'.null _ h1 h2 h3.1 h3.2.1

end Jettison.Props
