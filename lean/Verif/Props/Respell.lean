import Verif.Spec.Respell
import Verif.Props.Spoils
import Verif.Props.Trim
import Verif.Props.Std

/-!
# C78: options about spelling do not change the data

`NoHTMLEscaping`, `NoCompact`, `UnsortedMap` and `NoNumberValidation` have no effect on the data
that is encoded: two calls whose options differ in them only, and that succeed, write JSON texts of
trees that differ in the order of members at most.
-/

namespace Jettison.Props
open Jettison Jettison.Model Jettison.Spec Jettison.Proofs

variable {W : World} {M : MethV} {o o' : EncOpts} {t : TId} {ca q : Bool} {v : Val} {b b' : Bytes}

/-! ## Content of strings -/

theorem coerced_unique {s c : Bytes} (h : Coerced s c) : ∀ {c'}, Coerced s c' → c = c' := by
  induction h with
  | nil =>
    intro c' h'
    generalize hs : ([] : Bytes) = s at h'
    cases h' with
    | nil => rfl
    | good cp rest => exact absurd (List.append_eq_nil_iff.mp hs.symm).1 (utf8Encode_ne_nil cp)
    | bad => cases hs
  | good cp rest out hc hr ih =>
    intro c' h'
    generalize hs : utf8Encode cp ++ rest = s at h'
    cases h' with
    | nil => exact absurd (List.append_eq_nil_iff.mp hs).1 (utf8Encode_ne_nil cp)
    | good cp' rest' out' hc' hr' =>
      obtain ⟨rfl, rfl⟩ := utf8Encode_inj hc hc' hs
      rw [ih hr']
    | bad _ _ _ hb => exact absurd ⟨_, hs⟩ (hb cp hc)
  | bad x rest out hb hr ih =>
    intro c' h'
    generalize hs : x :: rest = s at h'
    cases h' with
    | nil => cases hs
    | good cp' rest' out' hc' hr' => exact absurd ⟨_, hs.symm⟩ (hb cp' hc')
    | bad _ _ _ _ hr' => cases hs; rw [ih hr']

/-- The content of a string is the same however it is spelled. -/
theorem spelled_same (e1 : bmHas o.flags .noStringEscaping = bmHas o'.flags .noStringEscaping) (e2 : bmHas o.flags .noUTF8Coercion = bmHas o'.flags .noUTF8Coercion)
    {s r r' : Bytes} (h : SpelledAs o s r) (h' : SpelledAs o' s r')
    (hs : bmHas o.flags .noStringEscaping = true → unescape s ≠ none) : ∃ c, unescape r = some c ∧ unescape r' = some c := by
  cases he : bmHas o.flags .noStringEscaping with
  | true =>
    rw [spelledAs_unique h (.raw he), spelledAs_unique h' (.raw (e1 ▸ he))]
    cases hu : unescape s with
    | none => exact absurd hu (hs he)
    | some c => exact ⟨c, rfl, rfl⟩
  | false =>
    have content : ∀ {o : EncOpts} {r : Bytes}, bmHas o.flags .noStringEscaping = false → SpelledAs o s r → ∃ c, unescape r = some c ∧ StrContent o s c := by
      intro o r he h
      obtain ⟨r1, h1, h2⟩ := appendEscaped_spelled o s
      obtain ⟨body, c, h3, h4, h5⟩ := escaped_text he s
      have := (h2 []).symm.trans (h3 [])
      simp only [List.nil_append] at this
      rw [spelledAs_unique h h1, this]
      exact ⟨c, h4, h5⟩
    obtain ⟨c, h1, h2⟩ := content he h
    obtain ⟨c', h1', h2'⟩ := content (e1 ▸ he) h'
    have : StrContent o s c' := ⟨fun h => h2'.1 (e2 ▸ h), fun h => h2'.2 (e2 ▸ h)⟩
    exact ⟨c, h1, by rw [strContent_unique h2 this fun a b ha hb => coerced_unique ha hb]; exact h1'⟩

theorem spelled_content (A : SpellAlike o o') {s r r' : Bytes} (h : SpelledAs o s r) (h' : SpelledAs o' s r')
    (hs : bmHas o.flags .noStringEscaping = true → unescape s ≠ none) : ∃ c, unescape r = some c ∧ unescape r' = some c :=
  spelled_same (A.flags .noStringEscaping (by rintro (h | h | h | h) <;> cases h)) (A.flags .noUTF8Coercion (by rintro (h | h | h | h) <;> cases h)) h h' hs

/-! ## Trees -/

theorem tree_val {j : Json} {b : Bytes} (h : Gr Ws (.val j) b) : JsonText j b := ⟨[], b, [], ws_nil, ws_nil, h, by simp⟩

theorem tree_str {kb c : Bytes} (h : unescape kb = some c) : JsonText (.str c) (b! "\"" ++ kb ++ b! "\"") := by
  have := tree_val (Gr.str (W := Ws) kb c h)
  simpa [strToken] using this

theorem sameTree_eq (h : b = b') (hf : Formed Ws b) : SameTree b b' := by
  obtain ⟨j, hj⟩ := formed_json.mp hf
  exact ⟨j, j, hj, h ▸ hj, .same _⟩

theorem sameTree_str {r r' : Bytes} (h : ∃ c, unescape r = some c ∧ unescape r' = some c) : SameTree (b! "\"" ++ r ++ b! "\"") (b! "\"" ++ r' ++ b! "\"") := by
  obtain ⟨c, h1, h2⟩ := h
  exact ⟨_, _, tree_str h1, tree_str h2, .same _⟩

theorem tree_elems {α : Type} {s : α → Bytes} {j : α → Json} : ∀ {l : List α}, (∀ x ∈ l, JsonText (j x) (s x)) → l ≠ [] → Gr Ws (.elems (l.map j)) (commas (l.map s))
  | [], _, hn => absurd rfl hn
  | [x], h, _ => by
    obtain ⟨w1, y, w2, h1, h2, h3, h4⟩ := h x (by simp)
    simpa [commas, h4] using Gr.elem (W := Ws) w1 y w2 (j x) h1 h3 h2
  | x :: x' :: l, h, _ => by
    obtain ⟨w1, y, w2, h1, h2, h3, h4⟩ := h x (by simp)
    have hj := tree_elems (s := s) (j := j) (l := x' :: l) (fun x hx => h x (List.mem_cons_of_mem _ hx)) (by simp)
    simpa [commas, h4] using Gr.elemCons (W := Ws) w1 y w2 _ (j x) _ h1 h3 h2 hj

theorem tree_arr {α : Type} {s : α → Bytes} {j : α → Json} {l : List α} (h : ∀ x ∈ l, JsonText (j x) (s x)) :
    JsonText (.arr (l.map j)) (b! "[" ++ commas (l.map s) ++ b! "]") := by
  by_cases hn : l = []
  · subst hn
    exact tree_val (Gr.arr0 (W := Ws) [] ws_nil)
  · have := tree_val (Gr.arr (W := Ws) _ _ (tree_elems h hn))
    simpa using this

/-- The text of a key with the content of the string. -/
def KeyText (c k : Bytes) : Prop := ∃ w1 kb w2, Ws w1 ∧ Ws w2 ∧ unescape kb = some c ∧ k = w1 ++ (strToken kb ++ w2)

theorem keyText_str {kb c : Bytes} (h : unescape kb = some c) : KeyText c (b! "\"" ++ kb ++ b! "\"") :=
  ⟨[], kb, [], ws_nil, ws_nil, h, by simp [strToken]⟩

theorem tree_members {α : Type} {f k s : α → Bytes} {c : α → Bytes} {j : α → Json} : ∀ {l : List α},
    (∀ x ∈ l, KeyText (c x) (k x) ∧ JsonText (j x) (s x) ∧ f x = k x ++ b! ":" ++ s x) → l ≠ [] →
    Gr Ws (.members (l.map fun x => (c x, j x))) (commas (l.map f))
  | [], _, hn => absurd rfl hn
  | [x], h, _ => by
    obtain ⟨⟨w1, kb, w2, h1, h2, h3, e1⟩, ⟨w3, y, w4, h4, h5, h6, e2⟩, e3⟩ := h x (by simp)
    simpa [commas, e1, e2, e3] using Gr.member (W := Ws) w1 kb w2 w3 y w4 (c x) (j x) h1 h3 h2 h4 h6 h5
  | x :: x' :: l, h, _ => by
    obtain ⟨⟨w1, kb, w2, h1, h2, h3, e1⟩, ⟨w3, y, w4, h4, h5, h6, e2⟩, e3⟩ := h x (by simp)
    have hj := tree_members (f := f) (l := x' :: l) (fun x hx => h x (List.mem_cons_of_mem _ hx)) (by simp)
    simpa [commas, e1, e2, e3] using Gr.memberCons (W := Ws) w1 kb w2 w3 y w4 _ (c x) (j x) _ h1 h3 h2 h4 h6 h5 hj

theorem tree_obj {α : Type} {f k s : α → Bytes} {c : α → Bytes} {j : α → Json} {l : List α}
    (h : ∀ x ∈ l, KeyText (c x) (k x) ∧ JsonText (j x) (s x) ∧ f x = k x ++ b! ":" ++ s x) :
    JsonText (.obj (l.map fun x => (c x, j x))) (b! "{" ++ commas (l.map f) ++ b! "}") := by
  by_cases hn : l = []
  · subst hn
    exact tree_val (Gr.obj0 (W := Ws) [] ws_nil)
  · have := tree_val (Gr.obj (W := Ws) _ _ (tree_members h hn))
    simpa using this

theorem pair_up {α β γ : Type} {R : α → β → γ → Prop} : ∀ {l : List α} {r : List β}, r.length = l.length →
    (∀ (i : Nat) x y, l[i]? = some x → r[i]? = some y → ∃ z, R x y z) →
    ∃ ts : List (α × β × γ), ts.map (fun t => t.1) = l ∧ ts.map (fun t => t.2.1) = r ∧ ∀ t ∈ ts, R t.1 t.2.1 t.2.2
  | [], [], _, _ => ⟨[], rfl, rfl, by simp⟩
  | [], _ :: _, h, _ => by simp at h
  | _ :: _, [], h, _ => by simp at h
  | x :: l, y :: r, hl, h => by
    obtain ⟨z, hz⟩ := h 0 x y rfl rfl
    obtain ⟨ts, h1, h2, h3⟩ := pair_up (R := R) (l := l) (r := r) (by simpa using hl) fun i a c ha hc => h (i + 1) a c (by simpa using ha) (by simpa using hc)
    refine ⟨(x, y, z) :: ts, by simp [h1], by simp [h2], fun t ht => ?_⟩
    rcases List.mem_cons.mp ht with rfl | ht
    · exact hz
    · exact h3 t ht

theorem exists_fun {α γ : Type} (d : γ) {R : α → γ → Prop} {l : List α} (h : ∀ x ∈ l, ∃ z, R x z) : ∃ f : α → γ, ∀ x ∈ l, R x (f x) := by
  classical
  refine ⟨fun x => if h : ∃ z, R x z then h.choose else d, fun x hx => ?_⟩
  simp only [dif_pos (h x hx)]
  exact (h x hx).choose_spec

theorem sameTree_arr {bs bs' : List Bytes} (hl : bs'.length = bs.length) (h : ∀ (i : Nat) x y, bs[i]? = some x → bs'[i]? = some y → SameTree x y) :
    SameTree (b! "[" ++ commas bs ++ b! "]") (b! "[" ++ commas bs' ++ b! "]") := by
  obtain ⟨ts, rfl, rfl, h3⟩ := pair_up (R := fun x y (z : Json × Json) => JsonText z.1 x ∧ JsonText z.2 y ∧ SameData z.1 z.2) hl fun i x y hx hy => by
    obtain ⟨j, j', h1, h2, h3⟩ := h i x y hx hy
    exact ⟨(j, j'), h1, h2, h3⟩
  refine ⟨_, _, tree_arr (j := fun t => t.2.2.1) fun t ht => (h3 t ht).1, tree_arr (j := fun t => t.2.2.2) fun t ht => (h3 t ht).2.1, ?_⟩
  have := SameData.arr (l := ts.map fun t => t.2.2) fun x hx => by
    obtain ⟨t, ht, rfl⟩ := List.mem_map.mp hx
    exact (h3 t ht).2.2
  simpa [List.map_map, Function.comp_def] using this

/-- Entries with the same keys and data, in some order. -/
theorem sameTree_obj {ms ms' mt mt' : List (Bytes × Bytes)} (hl : ms'.length = ms.length)
    (h : ∀ (i : Nat) x y, ms[i]? = some x → ms'[i]? = some y → (∃ c, KeyText c x.1 ∧ KeyText c y.1) ∧ SameTree x.2 y.2)
    (hp : mt.Perm ms) (hp' : mt'.Perm ms') : SameTree (objectOf mt) (objectOf mt') := by
  obtain ⟨ts, e1, e2, h3⟩ := pair_up (R := fun x y (z : Bytes × Json × Json) => KeyText z.1 x.1 ∧ KeyText z.1 y.1 ∧ JsonText z.2.1 x.2 ∧ JsonText z.2.2 y.2 ∧ SameData z.2.1 z.2.2) hl
    fun i x y hx hy => by
      obtain ⟨⟨c, h1, h2⟩, j, j', h3, h4, h5⟩ := h i x y hx hy
      exact ⟨(c, j, j'), h1, h2, h3, h4, h5⟩
  obtain ⟨ts1, p1, rfl⟩ := perm_lift hp e1.symm
  obtain ⟨ts2, p2, rfl⟩ := perm_lift hp' e2.symm
  unfold objectOf
  rw [List.map_map, List.map_map]
  refine ⟨_, _, tree_obj (k := fun t => t.1.1) (s := fun t => t.1.2) (c := fun t => t.2.2.1) (j := fun t => t.2.2.2.1) fun t ht => ?_,
    tree_obj (k := fun t => t.2.1.1) (s := fun t => t.2.1.2) (c := fun t => t.2.2.1) (j := fun t => t.2.2.2.2) fun t ht => ?_, ?_⟩
  · have := h3 t (p1.mem_iff.mp ht)
    exact ⟨this.1, this.2.2.1, rfl⟩
  · have := h3 t (p2.mem_iff.mp ht)
    exact ⟨this.2.1, this.2.2.2.1, rfl⟩
  · refine .obj (l := ts.map fun t => t.2.2) ?_ ?_ fun x hx => ?_
    · simpa [List.map_map, Function.comp_def] using p1.map _
    · simpa [List.map_map, Function.comp_def] using p2.map _
    · obtain ⟨t, ht, rfl⟩ := List.mem_map.mp hx
      exact (h3 t ht).2.2.2.2

/-! ## Options that are alike -/

theorem _root_.Jettison.Spec.SpellAlike.flag (A : SpellAlike o o') (f : Flag) (hf : ¬ SpellingFlag f := by rintro (h | h | h | h) <;> cases h) : bmHas o.flags f = bmHas o'.flags f :=
  A.flags f hf

theorem _root_.Jettison.Spec.SpellAlike.layout (A : SpellAlike o o') : o.layout = o'.layout := by unfold EncOpts.layout; rw [A.time]

theorem _root_.Jettison.Spec.SpellAlike.durFmt (A : SpellAlike o o') : o.durFmt = o'.durFmt := by unfold EncOpts.durFmt; rw [A.dur]

theorem _root_.Jettison.Spec.SpellAlike.leftOut (A : SpellAlike o o') {m : MField} : LeftOut o v m ↔ LeftOut o' v m := by unfold LeftOut; rw [A.allow, A.deny]

theorem _root_.Jettison.Spec.SpellAlike.times (A : SpellAlike o o') : SameTimes o o' := ⟨A.flag .unixTime, A.layout, A.durFmt⟩

theorem timeText_alike (A : SameTimes o o') {x : GoTime} (h : TimeText W o x b) : TimeText W o' x b := by
  have e := A.unix
  cases h with
  | unix h1 h2 => exact .unix (e ▸ h1) h2
  | rfc3339 h1 h2 h3 => exact .rfc3339 (e ▸ h1) (A.layout ▸ h2) h3
  | nano h1 h2 h3 => exact .nano (e ▸ h1) (A.layout ▸ h2) h3
  | layout h1 h2 => exact .layout (e ▸ h1) (A.layout ▸ h2)

theorem durationText_alike (A : SameTimes o o') {d : Int64} (h : DurationText W o d b) : DurationText W o' d b := by
  have e := A.dur
  cases h with
  | str h1 h2 h3 => exact .str (e ▸ h1) h2 h3
  | neg h1 h2 h3 => exact .neg (e ▸ h1) h2 h3
  | ns h1 h2 => exact .ns (e ▸ h1) h2
  | us h1 h2 => exact .us (e ▸ h1) h2
  | ms h1 h2 => exact .ms (e ▸ h1) h2
  | sec h1 h2 => exact .sec (e ▸ h1) h2
  | min h1 h2 => exact .min (e ▸ h1) h2

/-- What is copied keeps its tree. -/
theorem copied_tree {s : Bytes} {j : Json} (h : CopiedAs o s b) (hj : JsonText j s) : JsonText j b := by
  cases h with
  | verbatim => exact hj
  | compact _ h =>
    obtain ⟨r, h1, h2⟩ := appendCompactJSON_squeezed (!bmHas o.flags .noHTMLEscaping) s
    obtain ⟨out, h3, h4⟩ := C14_compact_value [] s (!bmHas o.flags .noHTMLEscaping) j hj
    rw [h2] at h3
    rw [squeezed_unique h h1, List.append_cancel_left h3]
    exact compact_isText h4

theorem both_called {m : MethKind} (hs : (W.E t).special = none) (hm : Picks W.E t ca m) (h : Writes W M o t ca q v b)
    (h' : Writes W M o' t ca q v b') : b = b! "null" ∧ b' = b! "null" ∨ ∃ rt x u, Receives W.E W.ptrTo t m v rt x u ∧ MethText M o rt x m b ∧ MethText M o' rt x m b' := by
  rcases w_meth hs hm h with ⟨rfl, rfl, g1, g2⟩ | ⟨rt, x, u, g1, g2⟩ <;> rcases w_meth hs hm h' with ⟨e, rfl, g1', g2'⟩ | ⟨rt', x', u', g1', g2'⟩
  · exact .inl ⟨rfl, rfl⟩
  · exfalso
    cases g1' with
    | own _ n1 n2 => exact g2.elim (fun h => n2 h rfl) n1
    | addr n1 => exact n1 g1
  · subst e
    exfalso
    cases g1 with
    | own _ n1 n2 => exact g2'.elim (fun h => n2 h rfl) n1
    | addr n1 => exact n1 g1'
  · obtain ⟨rfl, rfl, -⟩ := receives_unique g1 g1'
    exact .inr ⟨_, _, _, g1, g2, g2'⟩

theorem both_special {s : Special} (A : SameTimes o o') (hs : (W.E t).special = some s) (hn : s ≠ .syncMap) (hn' : s ≠ .rawMessage) (h : Writes W M o t ca q v b)
    (h' : Writes W M o' t ca q v b') : b = b' := by
  cases s with
  | time =>
    obtain ⟨x, rfl, -, h1⟩ := w_time hs h
    obtain ⟨x', e, -, h2⟩ := w_time hs h'
    cases e
    exact timeText_unique (timeText_alike A h1) h2
  | duration =>
    obtain ⟨x, rfl, h1⟩ := w_duration hs h
    obtain ⟨x', e, h2⟩ := w_duration hs h'
    cases e
    exact durationText_unique (durationText_alike A h1) h2
  | number =>
    obtain ⟨x, rfl, h1⟩ := w_number hs h
    obtain ⟨x', e, h2⟩ := w_number hs h'
    cases e
    rw [h1, h2]
  | rawMessage => exact absurd rfl hn'
  | syncMap => exact absurd rfl hn

theorem both_scalar (hb : ByKind W.E t ca) (hk : isBasicK (W.E t).kind = true) (hns : (W.E t).kind ≠ .string) (h : Writes W M o t ca false v b)
    (h' : Writes W M o' t ca false v b') : b = b' := by
  have hstr : ∀ {o : EncOpts} {s b}, ¬ Writes W M o t ca false (.str s) b := by
    intro o s b h
    generalize hv : Val.str s = v at h
    cases h with
    | str _ h => exact hns h
    | struct _ hst => obtain ⟨fs, hf⟩ := hst; rw [HasFields] at hf; rw [hf] at hk; cases hk
    | _ => first | (cases hv; done) | exact (picks_byKind ‹_› hb).elim | (have hsp := ByKind.special hb; simp_all; done)
  rcases w_scalar hb hk h with ⟨x, rfl, h1⟩ | ⟨x, rfl, h1⟩ | ⟨w, x, rfl, h1⟩ | ⟨s, c, rfl, h1, h2⟩ <;>
    rcases w_scalar hb hk h' with ⟨x', e, h1'⟩ | ⟨x', e, h1'⟩ | ⟨w', x', e, h1'⟩ | ⟨s', c', e, h1', h2'⟩ <;> cases e
  · rw [h1, h1']
  · exact intLiteral_unique h1 h1'
  · exact floatText_unique h1 h1'
  · exact absurd h hstr

/-- A key that is not odd has the same text. -/
theorem both_key (hP : PathFree M) {k : TId} {x : Val} (A : (W.E k).special = none ∨ SameTimes o o') (hks : (W.E k).kind ≠ .string) (hk : KeyType W.E k) (ho : ¬ OddKey W o k ca x)
    (h : Writes W M o k ca false x b) (h' : Writes W M o' k ca false x b') : b = b' := by
  cases hs : (W.E k).special with
  | some s =>
    have A : SameTimes o o' := A.resolve_left (by rw [hs]; simp)
    refine both_special A hs ?_ ?_ h h'
    · rintro rfl; exact ho (.native hs (fun h => by cases h.1) fun h => by cases h.1)
    · rintro rfl; exact ho (.native hs (fun h => by cases h.1) fun h => by cases h.1)
  | none =>
    rcases picks_or_byKind (ca := ca) hs with hb | ⟨m, hm⟩
    · refine both_scalar hb ?_ hks h h'
      rcases hk with h | ⟨k, h⟩ | h
      · exact absurd h hks
      · rw [h]; rfl
      · rw [byKind_noText hb] at h; cases h
    · by_cases hmt : m = .text
      · subst hmt
        rcases both_called hs hm h h' with ⟨rfl, rfl⟩ | ⟨rt, x, u, -, g1, g2⟩
        · rfl
        · cases g1 with
          | text g1 => cases g2 with | text g2 => rw [hP _ _ _ _ _ _ _, g2] at g1; cases g1; rfl
      · exact absurd (.method hs hm hmt) ho

theorem strFormed_key {b : Bytes} (h : StrFormed Ws b) : ∃ c, KeyText c b := by
  obtain ⟨w1, kb, w2, c, h1, h2, h3, h4⟩ := h
  exact ⟨c, w1, kb, w2, h1, h2, h3, h4⟩

/-! ## Values -/

theorem _root_.Jettison.Spec.Settled.part {t' : TId} {v' : Val} (h : Settled W o t v) (hw : Within W.E t v t' v') : Settled W o t' v' :=
  ⟨fun t'' vs x h' => h.raw t'' vs x (within_trans hw h'), fun t'' k e kvs kv h' => h.key t'' k e kvs kv (within_trans hw h'),
    fun t'' kvs kv d x h' => h.skey t'' kvs kv d x (within_trans hw h'), fun t'' v'' m h' => h.null t'' v'' m (within_trans hw h')⟩

def RespelledBelow (W : World) (M : MethV) (o o' : EncOpts) (n : Nat) : Prop :=
  ∀ t ca q v b b', sizeOf v < n → HasType W.E t v → Unspoilt Ws W M o t ca v → Settled W o t v → Writes W M o t ca q v b → Writes W M o' t ca q v b' → SameTree b b'

theorem unspoilt_formed (hl : FormatContract W.fmt) (hU : TablesOk W.U.isLetter W.U.isDigit) (hN : GoNames W.U.isLetter W.U.isDigit W.E)
    (G : GoTypes W.E W.ptrTo) (ht : HasType W.E t v) (hu : Unspoilt Ws W M o t ca v) (h : Writes W M o t ca q v b) : Formed Ws b :=
  Classical.byContradiction fun hb => by
    obtain ⟨t', ca', v', h1, h2⟩ := C73_text ws_nil hl hU hN G ht h hb
    exact hu t' ca' v' h1 h2

set_option maxHeartbeats 1000000 in
theorem respell_step (hl : FormatContract W.fmt) (hU : TablesOk W.U.isLetter W.U.isDigit) (hN : GoNames W.U.isLetter W.U.isDigit W.E)
    (G : GoTypes W.E W.ptrTo) (hP : PathFree M) (A : SpellAlike o o') {n : Nat} (ih : RespelledBelow W M o o' n) (hn : sizeOf v = n)
    (ht : HasType W.E t v) (hu : Unspoilt Ws W M o t ca v) (hS : Settled W o t v) (h : Writes W M o t ca q v b) (h' : Writes W M o' t ca q v b') :
    SameTree b b' := by
  have self : ¬ Spoils Ws W M o t ca v := fun h => hu _ _ _ .refl (.inl h)
  have selfM : ¬ SpoilsMember Ws W M o t ca v := fun h => hu _ _ _ .refl (.inr h)
  have formed := unspoilt_formed hl hU hN G ht hu h
  have part : ∀ {t' : TId} {v' : Val} {ca' q : Bool} {b b' : Bytes}, Encodes1 W o t ca v t' ca' v' → sizeOf v' < sizeOf v →
      Writes W M o t' ca' q v' b → Writes W M o' t' ca' q v' b' → SameTree b b' := fun hp hs h h' =>
    ih _ _ _ _ _ _ (hn ▸ hs) (encodes1_within G ht hp).1 (hu.part hp) (hS.part (encodes1_within G ht hp).2) h h'
  cases hs : (W.E t).special with
  | some s =>
    by_cases hsm : s = .syncMap
    · subst hsm
      obtain ⟨kvs, ms, ms', rfl, rfl, h1, h2, h3, h4, h5⟩ := w_smap hs h
      obtain ⟨kvs', mt, mt', e, rfl, h1', h2', h3', h4', h5'⟩ := w_smap hs h'
      cases e
      have small : ∀ {kv : Val × Val}, kv ∈ kvs → sizeOf kv.1 < sizeOf (Val.smap kvs) ∧ sizeOf kv.2 < sizeOf (Val.smap kvs) := by
        intro kv hkv
        have := List.sizeOf_lt_of_mem hkv
        have e : sizeOf kv = 1 + sizeOf kv.1 + sizeOf kv.2 := by cases kv; simp
        simp only [Val.smap.sizeOf_spec]
        omega
      have hdyn : ∀ kv ∈ kvs, ∃ d x, kv.2 = .iface d x := by
        intro kv hkv
        have hx : InIface W.E kv.2 := by
          cases ht with
          | smap _ _ hx => exact hx kv hkv
          | iface _ hx => cases hx
        rcases inIface_cases hx with e | ⟨d, x, e, -⟩
        · exact absurd e (h4 kv hkv)
        · exact ⟨d, x, e⟩
      have hboth := texts_both (R := fun (kv : Val × Val) (m : Bytes × Bytes) => SyncKeyWrites W M o kv.1 m.1 ∧
          ∀ d x, kv.2 = .iface d x → Writes W M o d (isPtrK (W.E d).kind) false x m.2)
          (R' := fun (kv : Val × Val) (m : Bytes × Bytes) => SyncKeyWrites W M o' kv.1 m.1 ∧
          ∀ d x, kv.2 = .iface d x → Writes W M o' d (isPtrK (W.E d).kind) false x m.2)
          (S := fun m m' => (∃ c, KeyText c m.1 ∧ KeyText c m'.1) ∧ SameTree m.2 m'.2) h1 h1'
          (fun i kv m ha hb => ⟨h2 i kv m ha hb, fun d x => h3 i kv m d x ha hb⟩) (fun i kv m ha hb => ⟨h2' i kv m ha hb, fun d x => h3' i kv m d x ha hb⟩) (by
        intro kv hkv m m' ⟨a1, a2⟩ ⟨b1, b2⟩
        constructor
        · generalize hkk : kv.1 = key at a1 b1
          generalize m.1 = k1 at a1
          generalize m'.1 = k2 at b1
          have odd := fun d x => hS.skey _ _ _ d x .refl hkv
          rw [hkk] at odd
          cases a1 with
          | str hks hsp =>
            cases b1 with
            | str _ hsp' =>
              obtain ⟨c, g1, g2⟩ := spelled_content A hsp hsp' fun he hu => selfM (.skeyStr hs hks he hkv hkk hu)
              exact ⟨c, keyText_str g1, keyText_str g2⟩
            | text h => exact absurd hks h
            | quoted h => rw [h] at hks; cases hks
          | @text kt x _ hks htx hwr =>
            cases b1 with
            | str h => exact absurd h hks
            | text _ _ hwr' =>
              have ho := odd _ _ rfl hks
              cases both_key hP (.inr A.times) hks (.inr (.inr htx)) ho hwr hwr'
              obtain ⟨c, hc⟩ := strFormed_key (textKey_formed ws_nil htx (fun h => hu.part (.skey hs hkv hkk (.inr (.inr htx)) hks) _ _ _ .refl (.inl h)) ho hwr)
              exact ⟨c, hc, hc⟩
            | quoted _ h => rw [h] at htx; cases htx
          | @quoted kt ik x c hki htx hwr =>
            have hks : (W.E kt).kind ≠ .string := by simp [hki]
            cases b1 with
            | str h => exact absurd h hks
            | text _ h => rw [h] at htx; cases htx
            | quoted _ _ hwr' =>
              have ho := odd _ _ rfl hks
              have hca : isPtrK (W.E kt).kind = false := by rw [hki]; rfl
              rw [hca] at ho hwr hwr'
              cases both_key hP (.inr A.times) hks (.inr (.inl ⟨_, hki⟩)) ho hwr hwr'
              obtain ⟨c, hc⟩ := strFormed_key (quoted_plain ws_nil (number_plain (intKey_number hl hki htx ho hwr)))
              exact ⟨c, hc, hc⟩
        · obtain ⟨d, x, e⟩ := hdyn kv hkv
          exact part (.selem hs hkv e) (by have := (small hkv).2; rw [e] at this; simp only [Val.iface.sizeOf_spec] at this; omega) (a2 d x e) (b2 d x e))
      exact sameTree_obj hboth.1 hboth.2 h5.1 h5'.1
    · by_cases hsr : s = .rawMessage
      · subst hsr
        rcases w_raw hs h with ⟨rfl, rfl⟩ | ⟨vs, x, rfl, h1, h2⟩ <;> rcases w_raw hs h' with ⟨e, rfl⟩ | ⟨vs', x', e, h1', h2'⟩ <;> cases e
        · exact sameTree_eq rfl formed
        · rw [← asBytes_unique h1 h1'] at h2'
          obtain ⟨j, hj⟩ := hS.raw _ _ _ .refl hs h1
          exact ⟨j, j, copied_tree h2 hj, copied_tree h2' hj, .same _⟩
      · exact sameTree_eq (both_special A.times hs hsm hsr h h') formed
  | none =>
    rcases picks_or_byKind (ca := ca) hs with hb | ⟨m, hm⟩
    · by_cases hk : isBasicK (W.E t).kind = true
      · by_cases hks : (W.E t).kind = .string
        · cases q with
          | false =>
            rcases w_scalar hb hk h with ⟨x, rfl, h1⟩ | ⟨x, rfl, h1⟩ | ⟨w, x, rfl, h1⟩ | ⟨s, c, rfl, h1, rfl⟩ <;>
              rcases w_scalar hb hk h' with ⟨x', e, h1'⟩ | ⟨x', e, h1'⟩ | ⟨w', x', e, h1'⟩ | ⟨s', c', e, h1', rfl⟩ <;> cases e
            · exact sameTree_eq (by rw [h1, h1']) formed
            · exact sameTree_eq (intLiteral_unique h1 h1') formed
            · exact sameTree_eq (floatText_unique h1 h1') formed
            · exact sameTree_str (spelled_content A h1 h1' fun he hu => self (.str hb hks he hu))
          | true =>
            rcases w_quoted hb hk h with ⟨h1, -⟩ | ⟨-, s, c, rfl, h2, rfl⟩
            · exact absurd hks h1
            rcases w_quoted hb hk h' with ⟨h1, -⟩ | ⟨-, s', c', e, h2', rfl⟩
            · exact absurd hks h1
            cases e
            obtain ⟨c, g1, g2⟩ := spelled_content A h2 h2' fun he hu => self (.str hb hks he hu)
            have := sameTree_str ⟨_, unescape_quoted g1, unescape_quoted g2⟩
            simpa using this
        · cases q with
          | false => exact sameTree_eq (both_scalar hb hk hks h h') formed
          | true =>
            rcases w_quoted hb hk h with ⟨-, c, h2, rfl⟩ | ⟨h1, -⟩
            · rcases w_quoted hb hk h' with ⟨-, c', h2', rfl⟩ | ⟨h1, -⟩
              · exact sameTree_eq (by rw [both_scalar hb hk hks h2 h2']) formed
              · exact absurd h1 hks
            · exact absurd h1 hks
      · cases hkk : (W.E t).kind with
        | bool | int | float | string => rw [hkk] at hk; exact absurd rfl hk
        | other => exact absurd hkk (w_kind hb h)
        | ptr e =>
          rcases w_ptr hb hkk h with ⟨rfl, rfl⟩ | ⟨x, rfl, h1⟩ <;> rcases w_ptr hb hkk h' with ⟨e, rfl⟩ | ⟨x', e, h1'⟩ <;> cases e
          · exact sameTree_eq rfl formed
          · exact part (.ptr hb hkk) (by simp) h1 h1'
        | iface k =>
          have := w_tag hb hk (by simp [hkk]) h
          subst this
          rcases w_iface hb hkk h with ⟨rfl, rfl⟩ | ⟨d, x, rfl, h1⟩ <;> rcases w_iface hb hkk h' with ⟨e, rfl⟩ | ⟨d', x', e, h1'⟩ <;> cases e
          · exact sameTree_eq rfl formed
          · exact part (.iface hb hkk) (by simp only [Val.iface.sizeOf_spec]; omega) h1 h1'
        | slice e =>
          have := w_tag hb hk (by simp [hkk]) h
          subst this
          by_cases he : ByteElem W.E e
          · rcases w_bytes hb hkk he h with ⟨rfl, rfl⟩ | ⟨vs, x, c, rfl, rfl, h1, h2⟩ <;>
              rcases w_bytes hb hkk he h' with ⟨e, rfl⟩ | ⟨vs', x', c', e, rfl, h1', h2'⟩ <;> cases e
            · exact sameTree_eq rfl formed
            · rw [← asBytes_unique h1 h1'] at h2'
              have ef := A.flag .rawByteSlice
              rcases h2 with ⟨f, h2⟩ | ⟨f, h2⟩ <;> rcases h2' with ⟨f', h2'⟩ | ⟨f', h2'⟩
              · exact sameTree_eq (by rw [base64_unique h2 h2']) formed
              · rw [← ef, f] at f'; cases f'
              · rw [← ef, f] at f'; cases f'
              · exact sameTree_str (spelled_content A h2 h2' fun hes hu => self (.bytes hb hkk he f hes h1 hu))
          · rcases w_slice hb hkk he h with ⟨rfl, rfl⟩ | ⟨vs, bs, rfl, rfl, h1, h2⟩ <;>
              rcases w_slice hb hkk he h' with ⟨e, rfl⟩ | ⟨vs', bs', e, rfl, h1', h2'⟩ <;> cases e
            · exact sameTree_eq (by rw [A.flag .nilSliceEmpty]) formed
            · obtain ⟨g1, g2⟩ := texts_both (S := SameTree) h1 h1' h2 h2' fun x hx y y' ha hb' => part (.slice hb hkk he hx) (by
                have := List.sizeOf_lt_of_mem hx
                simp only [Val.slice.sizeOf_spec]
                omega) ha hb'
              exact sameTree_arr g1 g2
        | array k e =>
          have := w_tag hb hk (by simp [hkk]) h
          subst this
          have ef := A.flag .byteArrayAsString
          rcases w_array hb hkk h with ⟨vs, x, c, rfl, rfl, g1, g2, g3, g4⟩ | ⟨vs, bs, rfl, rfl, g1, g2, g3⟩ <;>
            rcases w_array hb hkk h' with ⟨vs', x', c', e', rfl, g1', g2', g3', g4'⟩ | ⟨vs', bs', e', rfl, g1', g2', g3'⟩ <;> cases e'
          · rw [← asBytes_unique g3 g3'] at g4'
            exact sameTree_str (spelled_content A g4 g4' fun hes hu => self (.byteArray hb hkk g1 g2 hes g3 hu))
          · rw [ef, g1' g1] at g2; cases g2
          · rw [← ef, g1 g1'] at g2'; cases g2'
          · obtain ⟨f1, f2⟩ := texts_both (S := SameTree) g2 g2' g3 g3' fun x hx y y' ha hb' =>
              part (.array hb hkk (fun h => by rw [g1 h.1] at h; cases h.2) hx) (by
                have := List.sizeOf_lt_of_mem hx
                simp only [Val.array.sizeOf_spec]
                omega) ha hb'
            exact sameTree_arr f1 f2
        | map k e =>
          have := w_tag hb hk (by simp [hkk]) h
          subst this
          have hkt := (w_map hb hkk h).1
          rcases (w_map hb hkk h).2 with ⟨rfl, rfl⟩ | ⟨kvs, ms, ms', rfl, rfl, h1, h2, h3, h5⟩ <;>
            rcases (w_map hb hkk h').2 with ⟨e, rfl⟩ | ⟨kvs', mt, mt', e, rfl, h1', h2', h3', h5'⟩ <;> cases e
          · exact sameTree_eq (by rw [A.flag .nilMapEmpty]) formed
          · have small : ∀ {kv : Val × Val}, kv ∈ kvs → sizeOf kv.1 < sizeOf (Val.map kvs) ∧ sizeOf kv.2 < sizeOf (Val.map kvs) := by
              intro kv hkv
              have := List.sizeOf_lt_of_mem hkv
              have e : sizeOf kv = 1 + sizeOf kv.1 + sizeOf kv.2 := by cases kv; simp
              simp only [Val.map.sizeOf_spec]
              omega
            have hboth := texts_both
                (R := fun (kv : Val × Val) (m : Bytes × Bytes) => KeyWrites W M o k kv.1 m.1 ∧ Writes W M o _ false false kv.2 m.2)
                (R' := fun (kv : Val × Val) (m : Bytes × Bytes) => KeyWrites W M o' k kv.1 m.1 ∧ Writes W M o' _ false false kv.2 m.2)
                (S := fun m m' => (∃ c, KeyText c m.1 ∧ KeyText c m'.1) ∧ SameTree m.2 m'.2) h1 h1'
                (fun i kv m ha hb => ⟨h2 i kv m ha hb, h3 i kv m ha hb⟩) (fun i kv m ha hb => ⟨h2' i kv m ha hb, h3' i kv m ha hb⟩) (by
              intro kv hkv m m' ⟨a1, a2⟩ ⟨b1, b2⟩
              refine ⟨?_, part (.elem hb hkk hkt hkv) (small hkv).2 a2 b2⟩
              have odd := fun hks hp => hS.key _ _ _ _ _ .refl hkk hks hkv hp
              have hkp := fun hks hp => hu.part (Encodes1.key (kv := kv) hb hkk hkt hks (fun _ => hp) hkv)
              generalize hkey : kv.1 = key at a1 b1 odd hkp
              generalize m.1 = k1 at a1
              generalize m'.1 = k2 at b1
              cases a1 with
              | str hks hsp =>
                cases b1 with
                | str _ hsp' =>
                  obtain ⟨c, g1, g2⟩ := spelled_content A hsp hsp' fun he hu => selfM (.keyStr hb hkk hks he hkv hkey hu)
                  exact ⟨c, keyText_str g1, keyText_str g2⟩
                | text h | quoted h => exact absurd hks h
              | nilText hks htx hip =>
                cases b1 with
                | nilText => exact ⟨[], keyText_str (kb := []) rfl, keyText_str (kb := []) rfl⟩
                | text _ _ h => exact absurd rfl (h hip)
                | quoted _ h => rw [h] at htx; cases htx
              | text hks htx hnil hwr =>
                cases b1 with
                | str h => exact absurd h hks
                | nilText _ _ h => exact absurd rfl (hnil h)
                | text _ _ _ hwr' =>
                  have ho := odd hks hnil
                  cases both_key hP (.inr A.times) hks hkt ho hwr hwr'
                  obtain ⟨c, hc⟩ := strFormed_key (textKey_formed ws_nil htx (fun h => hkp hks hnil _ _ _ .refl (.inl h)) ho hwr)
                  exact ⟨c, hc, hc⟩
                | quoted _ h => rw [h] at htx; cases htx
              | quoted hks htx hwr =>
                obtain ⟨ik, hki⟩ : ∃ ik, (W.E k).kind = .int ik := by
                  rcases hkt with h | h | h
                  · exact absurd h hks
                  · exact h
                  · rw [htx] at h; cases h
                cases b1 with
                | str h => exact absurd h hks
                | nilText _ h => rw [h] at htx; cases htx
                | text _ h => rw [h] at htx; cases htx
                | quoted _ _ hwr' =>
                  have ho := odd hks (fun ⟨e', h'⟩ => by rw [hki] at h'; cases h')
                  cases both_key hP (.inr A.times) hks hkt ho hwr hwr'
                  obtain ⟨c, hc⟩ := strFormed_key (quoted_plain ws_nil (number_plain (intKey_number hl hki htx ho hwr)))
                  exact ⟨c, hc, hc⟩)
            exact sameTree_obj hboth.1 hboth.2 h5.1 h5'.1
        | struct fs =>
          have := w_tag hb hk (by simp [hkk]) h
          subst this
          have hst : IsStruct W.E t := ⟨fs, hkk⟩
          obtain ⟨l, tried, kept, q', x, c, key, lead, a1, a2, a3, a4, a5, a6, a7, a8, a9, a10, rfl⟩ := w_struct hb hst h
          obtain ⟨l2, tried2, kept2, q2, x2, c2, key2, lead2, b1, b2, b3, b4, b5, b6, b7, b8, b9, b10, rfl⟩ := w_struct hb hst h'
          cases membersOf_unique a1 b1
          have hnd := membersOf_nodup a1
          have chosen : ∀ m ∈ tried, ChosenField W.U.isLetter W.U.isDigit W.E t m ∧ ¬ LeftOut o v m := fun m hm =>
            ⟨(a1.2 m).mp (a2.subset hm), (a3 m (a2.subset hm)).mp hm⟩
          have e1 : tried = tried2 := sublist_unique hnd a2 b2 fun m hm => by rw [a3 m hm, b3 m hm, A.leftOut]
          subst e1
          have nodrop : ∀ m ∈ tried, ∀ b, ¬ NullDropped W.E m b := fun m hm b hd => hS.null _ _ m .refl hst (chosen m hm).1 hd.1 hd.2.1
          have all : ∀ {kept : List MField} {c : MField → Bytes}, kept.Sublist tried → (∀ m ∈ tried, m ∈ kept ↔ ¬ NullDropped W.E m (c m)) → kept = tried := by
            intro kept c h1 h2
            exact sublist_unique (hnd.sublist a2) h1 (List.Sublist.refl _) fun m hm => by simp [h2 m hm, nodrop m hm, hm]
          cases all a7 a8
          cases all b7 b8
          have lead0 : ∀ {c : Bytes} {kept : List MField}, Lead kept kept c → c = [] := by
            intro c kept h
            cases h with
            | none => rfl
            | comma _ h => exact absurd rfl h
          cases lead0 a10
          cases lead0 b10
          obtain ⟨J, hJ⟩ := exists_fun (γ := Json × Json) (.null, .null) (l := tried) (R := fun m z => JsonText z.1 (c m) ∧ JsonText z.2 (c2 m) ∧ SameData z.1 z.2) fun m hm => by
            have e1 := fieldAt_unique (a4 m hm) (b4 m hm)
            have e2 : q' m = q2 m := Bool.eq_iff_iff.mpr ((a5 m hm).trans (b5 m hm).symm)
            have w2 := b6 m hm
            rw [← e1, ← e2] at w2
            obtain ⟨j, j', g⟩ := part (.field hb hst (chosen m hm).1 (chosen m hm).2 (a4 m hm)) (Jettison.Props.fieldAt_size (a4 m hm)) (a6 m hm) w2
            exact ⟨(j, j'), g⟩
          refine ⟨.obj (tried.map fun m => (m.name, (J m).1)), .obj (tried.map fun m => (m.name, (J m).2)), ?_, ?_, ?_⟩
          · have := tree_obj (l := tried) (f := fun m => b! "\"" ++ key m ++ b! "\":" ++ c m) (k := fun m => b! "\"" ++ key m ++ b! "\"") (s := c) (c := fun m => m.name) (j := fun m => (J m).1)
              fun m hm => ⟨keyText_str (namedAs_body hU (chosen_name hN (chosen m hm).1) (a9 m hm)), (hJ m hm).1, by simp⟩
            simpa using this
          · have := tree_obj (l := tried) (f := fun m => b! "\"" ++ key2 m ++ b! "\":" ++ c2 m) (k := fun m => b! "\"" ++ key2 m ++ b! "\"") (s := c2) (c := fun m => m.name) (j := fun m => (J m).2)
              fun m hm => ⟨keyText_str (namedAs_body hU (chosen_name hN (chosen m hm).1) (b9 m hm)), (hJ m hm).2.1, by simp⟩
            simpa using this
          · refine .obj (l := tried.map fun m => (m.name, (J m).1, (J m).2)) ?_ ?_ fun y hy => ?_
            · simp [List.map_map, Function.comp_def]
            · simp [List.map_map, Function.comp_def]
            · obtain ⟨m, hm, rfl⟩ := List.mem_map.mp hy
              exact (hJ m hm).2.2
    · rcases both_called hs hm h h' with ⟨rfl, rfl⟩ | ⟨rt, x, u, g0, g1, g2⟩
      · exact sameTree_eq rfl formed
      · cases g1 with
        | ctx g1 => cases g2 with | ctx g2 => rw [← A.ctx, hP _ _ _ _ _ _ _, g1] at g2; cases g2; exact sameTree_eq rfl formed
        | app g1 => cases g2 with | app g2 => rw [hP _ _ _ _ _ _ _, g1] at g2; cases g2; exact sameTree_eq rfl formed
        | text g1 => cases g2 with | text g2 => rw [hP _ _ _ _ _ _ _, g1] at g2; cases g2; exact sameTree_eq rfl formed
        | @json _ d _ g1 f1 k1 =>
          cases g2 with
          | json g2 f2 k2 =>
            rw [hP _ _ _ _ _ _ _, g1] at g2
            cases g2
            obtain ⟨j, hj⟩ : ∃ j, JsonText j d := by
              cases k1 with
              | verbatim => exact formed_json.mp formed
              | compact hc => exact f1 hc
            exact ⟨j, j, copied_tree k1 hj, copied_tree k2 hj, .same _⟩

/-- C78: texts written with options that differ in spelling hold the same data. -/
theorem C78_text_partial (hl : FormatContract W.fmt) (hU : TablesOk W.U.isLetter W.U.isDigit) (hN : GoNames W.U.isLetter W.U.isDigit W.E)
    (G : GoTypes W.E W.ptrTo) (hP : PathFree M) (A : SpellAlike o o') (ht : HasType W.E t v) (hu : Unspoilt Ws W M o t ca v) (hS : Settled W o t v)
    (h : Writes W M o t ca q v b) (h' : Writes W M o' t ca q v b') : SameTree b b' := by
  have key : ∀ n, RespelledBelow W M o o' n := by
    intro n
    induction n with
    | zero => intro _ _ _ _ _ _ h; exact absurd h (Nat.not_lt_zero _)
    | succ n ihn =>
      intro t ca q v b b' hl' ht hu hS h h'
      exact respell_step hl hU hN G hP A (n := sizeOf v) (fun _ _ _ _ _ _ hs => ihn _ _ _ _ _ _ (by omega)) rfl ht hu hS h h'
  exact key _ _ _ _ _ _ _ (Nat.lt_succ_self _) ht hu hS h h'

/-- C78: two calls whose options differ in spelling only, and that succeed, write the same data. -/
theorem C78_calls_partial {H : Heap} (D : WriteReady W H M) (hN : GoNames W.U.isLetter W.U.isDigit W.E) (hP : PathFree M) {w : Addr}
    (hx : ReprE W.E H.mem (some (t, w)) (.iface t v)) (hf : TimesFine W t v) {opts opts' : List (Option Opt)} (ho : prepare opts = .ok o)
    (ho' : prepare opts' = .ok o') (A : SpellAlike o o') (hu : Unspoilt Ws W M o t (isPtrK (W.E t).kind) v) (hS : Settled W o t v) {n n' : Nat} :
    (∀ b b', marshalOpts W H n (some (t, w)) opts = .ret (some b) none → marshalOpts W H n' (some (t, w)) opts' = .ret (some b') none → SameTree b b') ∧
    (∀ dst dst' out out', appendOpts W H n dst (some (t, w)) opts = .ret (some out) none →
      appendOpts W H n' dst' (some (t, w)) opts' = .ret (some out') none → ∃ b b', out = dst ++ b ∧ out' = dst' ++ b' ∧ SameTree b b') := by
  have ht : HasType W.E t v := by
    cases repr_inIface hx with
    | val h => exact h
  have main := fun {b b' : Bytes} (h : Writes W M o t (isPtrK (W.E t).kind) false v b) h' =>
    C78_text_partial (b' := b') D.fmt D.ready.tab hN D.ready.types hP A ht hu hS h h'
  refine ⟨fun b b' h h' => main ((C56_bytes D hx hf ho).1 b h) ((C56_bytes D hx hf ho').1 b' h'), fun dst dst' out out' h h' => ?_⟩
  obtain ⟨b, rfl, h1⟩ := (C56_bytes D hx hf ho).2 dst out h
  obtain ⟨b', rfl, h2⟩ := (C56_bytes D hx hf ho').2 dst' out' h'
  exact ⟨b, b', rfl, rfl, main h1 h2⟩

/-- C78: the values that C30 is restricted to are such values. -/
theorem C78_fine (G : GoTypes W.E W.ptrTo) (ht : HasType W.E t v) (he : bmHas o.flags .noStringEscaping = false) (hf : AllFine W M o t v) :
    Unspoilt Ws W M o t ca v ∧ Settled W o t v := by
  refine ⟨fun t' ca' v' h => C73_fine ws_nil he (hf _ _ (encodes_within G h ht)), fun t' vs x hw hs hx => ?_, fun t' k e kvs kv hw hk hks hkv hn => ?_,
    fun t' kvs kv d x hw hkv e hks => ?_, fun t' v' m hw hst => (hf _ _ hw).null m hst⟩
  · obtain ⟨j, hj, -⟩ := (hf _ _ hw).raw _ _ hs rfl hx
    exact ⟨j, hj⟩
  · exact keyFine_even ((hf _ _ hw).key _ _ _ _ hk rfl hkv) hn hks (.inl rfl)
  · obtain ⟨g1, g2⟩ := (hf _ _ hw).skey _ _ _ _ rfl hkv e
    exact keyFine_even g1 g2 hks (.inr rfl)

end Jettison.Props
