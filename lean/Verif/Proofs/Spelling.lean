import Verif.Proofs.Letters

/-! # The bytes of whole texts -/

namespace Jettison.Proofs
open Jettison Jettison.Spec Jettison.Model Jettison.Props

variable {W : World} {H : Heap} {M : MethV} {o : EncOpts} {P : Bytes → Prop} {t t' : TId} {ca ca' : Bool} {v v' : Val} {b : Bytes}

/-- What is taken over for any part has the property. -/
def AllForeign (P : Bytes → Prop) (W : World) (M : MethV) (o : EncOpts) (t : TId) (ca : Bool) (v : Val) : Prop :=
  ∀ t' ca' v', Encodes W o t ca v t' ca' v' → Foreign P W M o t' ca' v'

theorem allForeign_part (h : AllForeign P W M o t ca v) (h1 : Encodes1 W o t ca v t' ca' v') : AllForeign P W M o t' ca' v' :=
  fun _ _ _ h2 => h _ _ _ (.step h1 h2)

/-- The claim for depth `n`. -/
def SpellsAt (P : Bytes → Prop) (W : World) (H : Heap) (M : MethV) (o : EncOpts) (n : Nat) : Prop :=
  ∀ t ca q i v path b, (∃ k, newInstruction W.E k t ca q = some i) → (∃ p, Repr W.E H.mem t p v) → AllForeign P W M o t ca v →
    runV W M o n path i v [] = .ok b → P b

theorem commas_letters (L : Letters W o P) : ∀ {ts : List Bytes}, (∀ x ∈ ts, P x) → P (commas ts)
  | [], _ => L.safe (by simp [commas, SafeText])
  | x :: ts, h => by
    rw [commas_cons]
    refine L.app (h x (by simp)) ?_
    have : ∀ l : List Bytes, (∀ y ∈ l, P y) → P ((l.map (b! "," ++ ·)).flatten) := by
      intro l hl
      induction l with
      | nil => exact L.safe (by simp [SafeText])
      | cons y l ih =>
        rw [List.map_cons, List.flatten_cons]
        exact L.app (L.app (L.safe (by decide)) (hl y (by simp))) (ih fun z hz => hl z (by simp [hz]))
    exact this ts fun y hy => h y (by simp [hy])

theorem objText_letters (L : Letters W o P) {ms : List (FInstr × Val × Bytes)} (h : ∀ m ∈ ms, P (memberText o m)) : P (objText o ms) := by
  have tail : ∀ l : List (FInstr × Val × Bytes), (∀ m ∈ l, P (memberText o m)) → P (objTail o l) := by
    intro l hl
    induction l with
    | nil => exact L.safe (b := b! "}") (by decide)
    | cons y l ih =>
      simp only [objTail]
      refine L.app ?_ (ih fun z hz => hl z (by simp [hz]))
      split
      · exact L.safe (by decide)
      · exact L.app (L.safe (by decide)) (hl y (by simp))
  cases ms with
  | nil => exact L.safe (b := b! "{}") (by decide)
  | cons m ms =>
    simp only [objText]
    refine L.app (L.app (L.safe (by decide)) ?_) (tail ms fun z hz => h z (by simp [hz]))
    split
    · exact L.safe (by decide)
    · exact h m (by simp)

theorem string_letters (L : Letters W o P) (s : Bytes) : P (encodeString s [] o.esc) := by
  simp only [encodeString]
  rw [appendEscapedBytes_append]
  exact L.app (L.app (L.safe (by decide)) (L.str s)) (L.safe (by decide))

theorem basic_letters (L : Letters W o P) (D : FaultReady W H M) (hk : isBasicK (W.E t).kind = true) (hv : HasType W.E t v)
    {q : Bool} {i : Instr} (hi : newBasicTypeInstr (W.E t).kind q = some i) {n : Nat} {path : Path} (h : runV W M o (n + 1) path i v [] = .ok b) : P b := by
  have G := D.ready.types
  have plain : ∀ {i : Instr} {n : Nat} {b : Bytes}, newBasicTypeInstr (W.E t).kind false = some i → runV W M o (n + 1) path i v [] = .ok b → P b := by
    intro i n b hi h
    have hkk : (W.E t).kind = .bool ∨ (∃ k, (W.E t).kind = .int k) ∨ (∃ w, (W.E t).kind = .float w) ∨ (W.E t).kind = .string := by
      revert hk
      cases (W.E t).kind <;> simp [isBasicK, isInteger]
    rcases hkk with hk' | ⟨k, hk'⟩ | ⟨w, hk'⟩ | hk'
    · obtain ⟨x, rfl⟩ := has_bool G hk' hv
      rw [hk'] at hi; simp only [newBasicTypeInstr, Bool.false_eq_true, if_false, Option.some.injEq] at hi; subst hi
      simp only [runV, execV, Res.ok.injEq] at h
      subst h
      cases x <;> exact L.safe (by decide)
    · obtain ⟨x, rfl, -⟩ := has_int G hk' hv
      rw [hk'] at hi; simp only [newBasicTypeInstr, Bool.false_eq_true, if_false, Option.some.injEq] at hi; subst hi
      simp only [runV, execV, Res.ok.injEq] at h
      subst h
      exact intVal_letters L _
    · obtain ⟨x, rfl⟩ := has_float G hk' hv
      rw [hk'] at hi; simp only [newBasicTypeInstr, Bool.false_eq_true, if_false, Option.some.injEq] at hi; subst hi
      simp only [runV, execV] at h
      cases ha : appendFloat W.fmt [] w x with
      | error e => rw [ha] at h; cases h
      | ok c => rw [ha] at h; cases h; exact float_letters L D.fmt ha
    · obtain ⟨x, rfl⟩ := has_str G hk' hv
      rw [hk'] at hi; simp only [newBasicTypeInstr, Bool.false_eq_true, if_false, Option.some.injEq] at hi; subst hi
      simp only [runV, execV, Res.ok.injEq] at h
      subst h
      exact string_letters L _
  cases q with
  | false => exact plain hi h
  | true =>
    have : (∃ j, newBasicTypeInstr (W.E t).kind false = some j ∧ i = .quoted j) ∨ ((W.E t).kind = .string ∧ i = .quotedString) := by
      revert hk hi
      cases (W.E t).kind <;> simp [isBasicK, isInteger, newBasicTypeInstr] <;> intro h <;> simp [h]
    rcases this with ⟨j, hj, rfl⟩ | ⟨hk', rfl⟩
    · rw [show runV W M o (n + 1) path (.quoted j) v [] = execV W M o (runV W M o n) path (.quoted j) v [] from rfl] at h
      simp only [execV, List.nil_append] at h
      rcases pre_cases (pre_runV (W := W) (M := M) (o := o) (contract_long D.fmt) D.honest n path j v) (b! "\"") with ⟨c, h1, h2⟩ | ⟨h1, h2⟩
      · rw [h2] at h
        cases h
        cases n with
        | zero => cases h1
        | succ n => exact L.app (L.app (L.safe (by decide)) (plain hj h1)) (L.safe (by decide))
      · split at h
        · next hc => exact absurd hc (h2 _)
        · next hc => exact absurd h (hc _)
    · obtain ⟨x, rfl⟩ := has_str G hk' hv
      simp only [runV, execV, Res.ok.injEq] at h
      subst h
      simp only [encodeQuotedString]
      rw [appendEscapedBytes_append]
      exact L.app (L.app (L.safe (by decide)) (L.str x)) (L.safe (by decide))

/-- Between quotes. -/
theorem quoted_letters (L : Letters W o P) {f : Bytes → Res} (hf : Pre f) (hP : ∀ c, f [] = .ok c → P c)
    (h : (match f (b! "\"") with | .ok dst => Res.ok (dst ++ b! "\"") | r => r) = .ok b) : P b := by
  rcases pre_cases hf (b! "\"") with ⟨c, h1, h2⟩ | ⟨h1, h2⟩
  · rw [h2] at h
    cases h
    exact L.app (L.app (L.safe (by decide)) (hP c h1)) (L.safe (by decide))
  · split at h
    · next hc => exact absurd hc (h2 _)
    · next hc => exact absurd h (hc _)

theorem key_letters (L : Letters W o P) (D : FaultReady W H M) {n : Nat} (ih : ∀ m, m ≤ n → SpellsAt P W H M o m) {kt : TId} {k' : Nat} {ki : Instr}
    (hki : (if isStringK (W.E kt).kind then some .string else newInstruction W.E k' kt false false) = some ki) {x : Val}
    (hx : ∃ p, Repr W.E H.mem kt p x) (path : Path)
    (hF : (W.E kt).kind ≠ .string → ((W.E kt).meths.text = true → IsPtr W.E kt → x ≠ .nil) → AllForeign P W M o kt false x)
    (h : runV W M o n path (wrapKey W.E kt ki) x [] = .ok b) : P b := by
  have G := D.ready.types
  obtain ⟨p, hp⟩ := hx
  have hv := repr_hasType hp
  cases n with
  | zero => cases h
  | succ n =>
  by_cases hs : (W.E kt).kind = .string
  · have h1 : isStringK (W.E kt).kind = true := by rw [hs]; rfl
    have h2 : isPtrK (W.E kt).kind = false := by rw [hs]; rfl
    rw [h1] at hki
    simp only [if_true, Option.some.injEq] at hki
    subst hki
    obtain ⟨s, rfl⟩ := has_str G hs hv
    simp only [wrapKey, h1, h2, Bool.not_true, Bool.false_and, Bool.and_false, Bool.false_eq_true, if_false] at h
    simp only [runV, execV, Res.ok.injEq] at h
    subst h
    exact string_letters L _
  · have h1 : isStringK (W.E kt).kind = false := by
      cases h : isStringK (W.E kt).kind with
      | false => rfl
      | true => exact absurd (isStringK_iff.mp h) hs
    rw [h1] at hki
    simp only [Bool.false_eq_true, if_false] at hki
    simp only [wrapKey, h1, Bool.not_false, Bool.true_and] at h
    cases ht : (W.E kt).meths.text with
    | false =>
      simp only [ht, Bool.not_false, if_true, Bool.false_and, Bool.false_eq_true, if_false] at h
      refine quoted_letters L (pre_runV (W := W) (M := M) (o := o) (contract_long D.fmt) D.honest n path ki x) (fun c hc => ?_) h
      exact ih n (by omega) kt false false ki x path c ⟨k', hki⟩ ⟨p, hp⟩ (hF hs (by simp [ht])) hc
    | true =>
      simp only [ht, Bool.not_true, Bool.false_eq_true, if_false, Bool.true_and] at h
      cases hp' : isPtrK (W.E kt).kind with
      | false =>
        simp only [hp', Bool.false_eq_true, if_false] at h
        refine ih (n + 1) (Nat.le_refl _) kt false false ki x path b ⟨k', hki⟩ ⟨p, hp⟩ (hF hs fun _ h => ?_) h
        rw [(isPtr_iff _ _).mp h] at hp'; cases hp'
      | true =>
        simp only [hp', if_true] at h
        by_cases hn : x = .nil
        · subst hn
          simp only [runV, execV, List.nil_append, Res.ok.injEq] at h
          subst h
          exact L.safe (by decide)
        · have e : runV W M o (n + 1) path (.nilText ki) x [] = runV W M o n path ki x [] := by
            simp only [runV, execV]
          rw [e] at h
          exact ih n (by omega) kt false false ki x path b ⟨k', hki⟩ ⟨p, hp⟩ (hF hs fun _ _ => hn) h

theorem held_letters {n : Nat} (ih : ∀ m, m ≤ n → SpellsAt P W H M o m) {d : TId} {x : Val} (hx : ∃ p, Repr W.E H.mem d p x) {path : Path}
    (hF : AllForeign P W M o d (isPtrK (W.E d).kind) x) (h : appendJSONV W (runV W M o n) path (.iface d x) [] = .ok b) : P b := by
  rcases appendJSONV_made (W := W) (M := M) (o := o) (d := d) (x := x) n path with h' | ⟨m, j, hm, hj, h'⟩
  · rw [h'] at h; cases h
  · rw [h'] at h; exact ih m hm _ _ _ _ _ _ _ hj hx hF h

theorem skey_letters (L : Letters W o P) (D : FaultReady W H M) {n : Nat} (ih : ∀ m, m ≤ n → SpellsAt P W H M o m) {kt : TId} {x : Val}
    (hx : ∃ p, Repr W.E H.mem kt p x) {path : Path}
    (hF : KeyType W.E kt → (W.E kt).kind ≠ .string → AllForeign P W M o kt (isPtrK (W.E kt).kind) x)
    (h : appendSyncMapKeyV W o (runV W M o n) path (.iface kt x) [] = .ok b) : P b := by
  have G := D.ready.types
  have hv : HasType W.E kt x := by obtain ⟨p, hp⟩ := hx; exact repr_hasType hp
  simp only [appendSyncMapKeyV] at h
  split at h
  · cases h
  next hok =>
  have hkt : KeyType W.E kt := by
    rw [← mapKeyOk_iff]
    revert hok
    simp only [mapKeyOk]
    cases isStringK (W.E kt).kind <;> cases isInteger (W.E kt).kind <;> cases (W.E kt).meths.text <;> simp
  by_cases hs : (W.E kt).kind = .string
  · obtain ⟨s, rfl⟩ := has_str G hs hv
    rw [if_pos (isStringK_iff.mpr hs)] at h
    simp only [Res.ok.injEq] at h
    subst h
    exact string_letters L _
  · have h1 : isStringK (W.E kt).kind = false := by
      cases h : isStringK (W.E kt).kind with
      | false => rfl
      | true => exact absurd (isStringK_iff.mp h) hs
    rw [h1] at h
    simp only [Bool.false_eq_true, if_false, Bool.not_false, Bool.true_and] at h
    have hpre := pre_appendJSONV (W := W) (pre_runV (M := M) (o := o) (contract_long D.fmt) D.honest n) path (.iface kt x)
    cases ht : (W.E kt).meths.text with
    | false =>
      simp only [ht, Bool.not_false, if_true, List.nil_append] at h
      exact quoted_letters L hpre (fun c hc => held_letters ih hx (hF hkt hs) hc) h
    | true =>
      simp only [ht, Bool.not_true, Bool.false_eq_true, if_false] at h
      refine held_letters ih hx (hF hkt hs) (path := path) ?_
      split at h
      · next hc => rw [hc]; exact h
      · exact h

theorem entries_letters (L : Letters W o P) (hso : SortOk W.sort) {kf vf : Nat → Val × Val → Bytes → Res} (hk : ∀ n a, Pre (kf n a)) (hv : ∀ n a, Pre (vf n a))
    {es : List (Val × Val)} (h1 : ∀ e ∈ es, ∀ n c, kf n e [] = .ok c → P c) (h2 : ∀ e ∈ es, ∀ n c, vf n e [] = .ok c → P c)
    (h : encodeEntries W o kf vf es [] = .ok b) : P b := by
  obtain ⟨ts, hts, h⟩ := (entries_ok hk hv es [] b).mp h
  obtain ⟨z1, z2, z3⟩ := (entryTexts_all2 hts).zip
  have hent : ∀ x ∈ ts, P (entryText x) := by
    intro x hx
    rw [← z2] at hx
    obtain ⟨z, hz, rfl⟩ := List.mem_map.mp hx
    obtain ⟨n, e1, e2⟩ := z3 z hz
    have hm : z.1 ∈ es := by rw [← z1]; exact List.mem_map_of_mem hz
    exact L.app (L.app (h1 _ hm _ _ e1) (L.safe (by decide))) (h2 _ hm _ _ e2)
  have wrap : ∀ l : List Bytes, (∀ x ∈ l, P x) → P ([] ++ (b! "{" ++ commas l ++ b! "}")) := fun l hl => by
    rw [List.nil_append]
    exact L.app (L.app (L.safe (by decide)) (commas_letters L hl)) (L.safe (by decide))
  rcases h with ⟨-, rfl⟩ | ⟨-, -, rfl⟩
  · refine wrap _ fun x hx => ?_
    obtain ⟨y, hy, rfl⟩ := List.mem_map.mp hx
    exact hent y hy
  · refine wrap _ fun x hx => ?_
    obtain ⟨y, hy, rfl⟩ := List.mem_map.mp hx
    rw [(hso.perm _ _).mem_iff] at hy
    obtain ⟨z, hz, rfl⟩ := List.mem_map.mp hy
    exact hent z hz

theorem array_letters (L : Letters W o P) {rec : RecV} (hp : ∀ path i v, Pre (rec path i v)) {path : Path} {ins : Instr} {vs : List Val}
    (hall : ∀ x ∈ vs, ∀ path c, rec path ins x [] = .ok c → P c) (h : arrayLoopV rec path ins 0 vs [] = .ok b) : P b := by
  obtain ⟨ts, h1, h2, rfl⟩ := (arrayV_ok hp path ins vs 0 [] b).mp h
  rw [if_pos rfl, List.nil_append]
  refine L.app (L.app (L.safe (by decide)) (commas_letters L fun x hx => ?_)) (L.safe (by decide))
  obtain ⟨i, hi⟩ := List.mem_iff_getElem?.mp hx
  have hil : i < vs.length := by
    have := (List.getElem?_eq_some_iff.mp hi).1
    omega
  exact hall vs[i] (List.getElem_mem hil) _ _ (h2 i _ _ (List.getElem?_eq_getElem hil) hi)

/-! ## Kinds -/

theorem safe_base64 (c : Bytes) : SafeText (stdEncode c) := by
  intro x hx
  obtain ⟨-, h, -, -, h1, h2, h3⟩ := base64_plain (stdEncode_spec c) x hx
  exact ⟨by simpa using UInt8.lt_iff_toNat_lt.mp h, h1, h2, h3⟩

theorem map_letters (L : Letters W o P) (D : FaultReady W H M) {n : Nat} (ih : ∀ m, m ≤ n → SpellsAt P W H M o m) (hb : ByKind W.E t ca) {kt et : TId}
    (hk : (W.E t).kind = .map kt et) (hx : ∃ p, Repr W.E H.mem t p v) {q : Bool} {i : Instr} {k : Nat} (hi : newInstruction W.E k t ca q = some i) {path : Path}
    (hF : AllForeign P W M o t ca v) (h : runV W M o (n + 1) path i v [] = .ok b) : P b := by
  obtain ⟨p, hp⟩ := hx
  cases hm : mapKeyOk W.E kt with
  | false =>
    have := byKind_badMap hb hk hm hi
    subst this
    cases h
  | true =>
    have hkt := (mapKeyOk_iff W.E kt).mp hm
    obtain ⟨k', ki, vi, hki, hvi, rfl⟩ := byKind_map hb hk hm hi
    rcases repr_map D.ready.types hk hp with ⟨rfl, -⟩ | ⟨a, es, kvs, rfl, -, -, -, hlen, h1, h2⟩
    · simp only [runV, execV, Res.ok.injEq] at h
      subst h
      split <;> exact L.safe (by decide)
    · have hmem : ∀ kv ∈ kvs, (∃ p, Repr W.E H.mem kt p kv.1) ∧ ∃ p, Repr W.E H.mem et p kv.2 := fun kv hkv => by
        obtain ⟨i, hi⟩ := List.mem_iff_getElem?.mp hkv
        have hil : i < es.length := by
          have := (List.getElem?_eq_some_iff.mp hi).1
          omega
        exact ⟨⟨_, h1 i es[i] kv (List.getElem?_eq_getElem hil) hi⟩, ⟨_, h2 i es[i] kv (List.getElem?_eq_getElem hil) hi⟩⟩
      simp only [runV, execV] at h
      by_cases h0 : kvs.length = 0
      · rw [if_pos h0] at h
        cases h
        exact L.safe (by decide)
      · rw [if_neg h0] at h
        have hpre := pre_runV (W := W) (M := M) (o := o) (contract_long D.fmt) D.honest n
        refine entries_letters L D.ready.sort (fun m e => hpre _ _ _) (fun m e => hpre _ _ _) ?_ ?_ h
        · intro e he m c hc
          have he' := visit_mem he
          exact key_letters L D ih hki (hmem e he').1 _ (fun hns hne => allForeign_part hF (.key hb hk hkt hns hne he')) hc
        · intro e he m c hc
          have he' := visit_mem he
          exact ih n (Nat.le_refl _) et false false vi _ _ _ ⟨_, hvi⟩ (hmem e he').2 (allForeign_part hF (.elem hb hk hkt he')) hc

theorem smap_letters (L : Letters W o P) (D : FaultReady W H M) {n : Nat} (ih : ∀ m, m ≤ n → SpellsAt P W H M o m) (hs : (W.E t).special = some .syncMap)
    {kvs : List (Val × Val)} (h1 : ∀ kv ∈ kvs, ∃ e, ReprE W.E H.mem e kv.1) (h2 : ∀ kv ∈ kvs, ∃ e, ReprE W.E H.mem e kv.2) {path : Path}
    (hF : AllForeign P W M o t ca (.smap kvs)) (h : encodeSpecialV W o (runV W M o n) path .syncMap (.smap kvs) [] = .ok b) : P b := by
  have hpre := pre_runV (W := W) (M := M) (o := o) (contract_long D.fmt) D.honest n
  simp only [encodeSpecialV] at h
  refine entries_letters L D.ready.sort (fun m e => pre_syncMapKeyV hpre _ _) (fun m e => pre_appendJSONV hpre _ _) ?_ ?_ h
  · intro e he m c hc
    have he' := visit_mem he
    obtain ⟨r, hr⟩ := h1 _ he'
    rcases reprE_cases hr with h | ⟨d, y, h, hp⟩
    · rw [h] at hc; cases hc
    · rw [h] at hc
      exact skey_letters L D ih hp (fun hkt hns => allForeign_part hF (.skey hs he' h hkt hns)) hc
  · intro e he m c hc
    have he' := visit_mem he
    obtain ⟨r, hr⟩ := h2 _ he'
    rcases reprE_cases hr with h | ⟨d, y, h, hp⟩
    · rw [h] at hc; cases hc
    · rw [h] at hc
      exact held_letters ih hp (allForeign_part hF (.selem hs he' h)) hc

theorem slice_letters (L : Letters W o P) (D : FaultReady W H M) {n : Nat} (ih : ∀ m, m ≤ n → SpellsAt P W H M o m) (hb : ByKind W.E t ca) {e : TId}
    (hk : (W.E t).kind = .slice e) (hx : ∃ p, Repr W.E H.mem t p v) {q : Bool} {i : Instr} {k : Nat} (hi : newInstruction W.E k t ca q = some i) {path : Path}
    (hF : AllForeign P W M o t ca v) (h : runV W M o (n + 1) path i v [] = .ok b) : P b := by
  obtain ⟨p, hp⟩ := hx
  cases he : isByteElem W.E e with
  | true =>
    have := byKind_byteSlice hb hk he hi
    subst this
    rw [show runV W M o (n + 1) path .byteSlice v [] =
      withRead (byteSliceOf v) fun b => .ok (encodeByteSlice b [] o.esc (bmHas o.flags .rawByteSlice)) from rfl] at h
    cases hx : byteSliceOf v with
    | none => rw [hx] at h; cases h
    | some c =>
      rw [hx] at h
      cases h
      cases c with
      | none => exact L.safe (b := b! "null") (by decide)
      | some c =>
        simp only [encodeByteSlice, List.nil_append]
        split
        · rw [appendEscapedBytes_append]
          exact L.app (L.app (L.safe (by decide)) (L.str c)) (L.safe (by decide))
        · exact L.app (L.app (L.safe (by decide)) (L.safe (safe_base64 c))) (L.safe (by decide))
  | false =>
    obtain ⟨k', j, hj, rfl⟩ := byKind_slice hb hk he hi
    have hB : ¬ ByteElem W.E e := fun h => by rw [(isByteElem_iff W.E e).mpr h] at he; cases he
    rcases repr_slice D.ready.types hk hp with ⟨rfl, -⟩ | ⟨d, vs, rfl, -, -, hall⟩
    · simp only [runV, execV, Res.ok.injEq] at h
      subst h
      split <;> exact L.safe (by decide)
    · have hmem : ∀ x ∈ vs, ∃ p, Repr W.E H.mem e p x := fun x hx => by
        obtain ⟨i, hi⟩ := List.mem_iff_getElem?.mp hx
        exact ⟨_, hall i x hi⟩
      simp only [runV, execV, encodeArrayV, Bool.false_and, Bool.false_eq_true, if_false] at h
      by_cases h0 : vs.length = 0
      · rw [if_pos h0] at h
        cases h
        exact L.safe (by decide)
      · rw [if_neg h0] at h
        exact array_letters L (pre_runV (W := W) (M := M) (o := o) (contract_long D.fmt) D.honest n)
          (fun x hx path c hc => ih n (Nat.le_refl _) e true false j _ path c ⟨_, hj⟩ (hmem _ hx) (allForeign_part hF (.slice hb hk hB hx)) hc) h

theorem arrayKind_letters (L : Letters W o P) (D : FaultReady W H M) {n : Nat} (ih : ∀ m, m ≤ n → SpellsAt P W H M o m) (hb : ByKind W.E t ca) {l : Nat} {e : TId}
    (hk : (W.E t).kind = .array l e) (hx : ∃ p, Repr W.E H.mem t p v) {q : Bool} {i : Instr} {k : Nat} (hi : newInstruction W.E k t ca q = some i) {path : Path}
    (hF : AllForeign P W M o t ca v) (h : runV W M o (n + 1) path i v [] = .ok b) : P b := by
  obtain ⟨p, hp⟩ := hx
  obtain ⟨k', j, hj, rfl⟩ := byKind_array hb hk hi
  obtain ⟨vs, rfl, -, hall⟩ := repr_array D.ready.types hk hp
  have hmem : ∀ x ∈ vs, ∃ p, Repr W.E H.mem e p x := fun x hx => by
    obtain ⟨i, hi⟩ := List.mem_iff_getElem?.mp hx
    exact ⟨_, hall i x hi⟩
  simp only [runV, execV, encodeArrayV] at h
  by_cases hc : (isByteElem W.E e && bmHas o.flags .byteArrayAsString) = true
  · rw [if_pos hc] at h
    cases hy : bytesOf vs with
    | none => rw [hy] at h; cases h
    | some c =>
      rw [hy] at h
      simp only [withRead, Res.ok.injEq] at h
      subst h
      rw [appendEscapedBytes_append]
      exact L.app (L.app (L.safe (by decide)) (L.str c)) (L.safe (by decide))
  · rw [if_neg hc] at h
    have hB : ¬ (ByteElem W.E e ∧ bmHas o.flags .byteArrayAsString = true) := fun h => hc (by
      rw [Bool.and_eq_true, isByteElem_iff]; exact h)
    exact array_letters L (pre_runV (W := W) (M := M) (o := o) (contract_long D.fmt) D.honest n)
      (fun x hx path c hc => ih n (Nat.le_refl _) e ca false j _ path c ⟨_, hj⟩ (hmem _ hx) (allForeign_part hF (.array hb hk hB hx)) hc) h

theorem struct_letters (L : Letters W o P) (D : FaultReady W H M) {n : Nat} (ih : ∀ m, m ≤ n → SpellsAt P W H M o m) (hb : ByKind W.E t ca) (hs : IsStruct W.E t)
    (hx : ∃ p, Repr W.E H.mem t p v) {q : Bool} {i : Instr} {k : Nat} (hi : newInstruction W.E k t ca q = some i) {path : Path}
    (hF : AllForeign P W M o t ca v) (h : runV W M o (n + 1) path i v [] = .ok b) : P b := by
  have hst := hs
  obtain ⟨fs, hk⟩ := hs
  obtain ⟨p, hp⟩ := hx
  have := byKind_struct hb hk hi
  subst this
  simp only [runV, execV] at h
  split at h
  · cases h
    exact L.safe (by decide)
  · split at h
    · cases h
    · next flds hflds =>
      obtain ⟨fl, g, hfld, hmem, hbeh, hspec⟩ := struct_fields (o := o) D.ready hst hp hflds
      have hpre := pre_runV (W := W) (M := M) (o := o) (contract_long D.fmt) D.honest n
      rw [structLoopV_G] at h
      obtain ⟨ms, hms, rfl⟩ := (structG_ok o (fun f => fieldV o f v) hpre path flds 0 true [] b).mp h
      rw [if_pos rfl, List.nil_append]
      refine objText_letters L fun m hm => ?_
      obtain ⟨a1, a2, j, a3⟩ := (emits_fields hms).2 m hm
      rcases hspec m.1 a1 with ⟨z, -⟩ | ⟨y, z1, z2, z3, z4, q', z5⟩
      · rw [a2] at z; cases z
      · rw [a2] at z1; cases z1
        have hfl : m.1.fld ∈ fl := by rw [← hfld]; exact List.mem_map_of_mem a1
        have hc : ChosenField W.U.isLetter W.U.isDigit W.E t (g m.1.fld) := (hmem.2 _).mp (List.mem_map_of_mem hfl)
        simp only [memberText]
        rw [← (hbeh _ hfl).name]
        exact L.app (L.key t _ hc) (ih n (Nat.le_refl _) _ _ q' _ _ _ _ z5 z4 (allForeign_part hF (.field hb hst hc z2 z3)) a3)

theorem bres_ok {r : BRes} {e : Err} {dst : Bytes} (h : r.res e dst = .ok b) : r = .ok b := by
  cases r <;> simp_all [BRes.res]

theorem except_ok {r : Except Unit Bytes} {e : Err} {dst : Bytes} (h : exceptRes r e dst = .ok b) : r = .ok b := by
  cases r <;> simp_all [exceptRes]

/-! ## All values -/

theorem spells_upto (L : Letters W o P) (D : FaultReady W H M) : ∀ n, ∀ m, m ≤ n → SpellsAt P W H M o m := by
  intro n
  induction n with
  | zero =>
    intro m hm
    have : m = 0 := by omega
    subst this
    intro t ca q i v path b _ _ _ h
    cases h
  | succ n ih =>
    intro m hm
    by_cases hmn : m ≤ n
    · exact ih m hmn
    have : m = n + 1 := by omega
    subst this
    intro t ca q i v path b ⟨k, hi⟩ ⟨p, hp⟩ hF h
    have G := D.ready.types
    have hv := repr_hasType hp
    have F := hF _ _ _ .refl
    cases hs : (W.E t).special with
    | some s =>
      have := special_made hs hi
      subst this
      have e : runV W M o (n + 1) path (.goType s) v [] = encodeSpecialV W o (runV W M o n) path s v [] := rfl
      rw [e] at h
      cases s with
      | syncMap =>
        obtain ⟨es, kvs, rfl, -, hlen, h1, h2⟩ := repr_smap G hs hp
        have hmem : ∀ kv ∈ kvs, (∃ e, ReprE W.E H.mem e kv.1) ∧ ∃ e, ReprE W.E H.mem e kv.2 := fun kv hkv => by
          obtain ⟨i, hi⟩ := List.mem_iff_getElem?.mp hkv
          have hil : i < es.length := by
            have := (List.getElem?_eq_some_iff.mp hi).1
            omega
          exact ⟨⟨_, h1 i es[i] kv (List.getElem?_eq_getElem hil) hi⟩, ⟨_, h2 i es[i] kv (List.getElem?_eq_getElem hil) hi⟩⟩
        exact smap_letters L D ih hs (fun kv h => (hmem kv h).1) (fun kv h => (hmem kv h).2) hF h
      | time =>
        obtain ⟨x, rfl, -⟩ := repr_time G hs hp
        simp only [encodeSpecialV] at h
        exact time_letters L hs F (bres_ok h)
      | duration =>
        obtain ⟨x, rfl, hx⟩ := has_int G (G.duration _ hs) hv
        cases x <;> simp [IntVal.kind] at hx
        simp only [encodeSpecialV] at h
        exact duration_letters L D.fmt (bres_ok h)
      | number =>
        obtain ⟨x, rfl⟩ := has_str G (G.number _ hs) hv
        simp only [encodeSpecialV] at h
        exact number_letters L hs F (except_ok h)
      | rawMessage =>
        simp only [encodeSpecialV] at h
        cases hx : byteSliceOf v with
        | none => rw [hx] at h; cases h
        | some c =>
          rw [hx] at h
          cases h
          exact raw_letters L hs F hx
    | none =>
      rcases picks_or_byKind (ca := ca) hs with hb | ⟨m, hpk⟩
      rotate_left
      · have := picks_made hs hpk hi
        subst this
        exact meth_letters L G hs hpk hv F h
      · cases hk : (W.E t).kind with
        | ptr e =>
          obtain ⟨k', j, hj, rfl⟩ := byKind_ptr hb hk hi
          rcases repr_ptr G hk hp with ⟨rfl, -⟩ | ⟨a, x, rfl, -, -, hx⟩
          · simp only [runV, execV, Res.ok.injEq] at h
            subst h
            exact L.safe (by decide)
          · exact ih n (Nat.le_refl _) e true q j x path b ⟨_, hj⟩ ⟨_, hx⟩ (allForeign_part hF (.ptr hb hk)) h
        | iface e =>
          have := byKind_iface hb hk hi
          subst this
          obtain ⟨y, -, hy⟩ := repr_iface G hk hp
          rcases reprE_cases hy with rfl | ⟨d, x, rfl, hx⟩
          · simp only [runV, execV, Res.ok.injEq] at h
            subst h
            exact L.safe (by decide)
          · exact held_letters ih hx (allForeign_part hF (.iface hb hk)) h
        | slice e => exact slice_letters L D ih hb hk ⟨p, hp⟩ hi hF h
        | array l e => exact arrayKind_letters L D ih hb hk ⟨p, hp⟩ hi hF h
        | map kt et => exact map_letters L D ih hb hk ⟨p, hp⟩ hi hF h
        | struct fs => exact struct_letters L D ih hb ⟨fs, hk⟩ ⟨p, hp⟩ hi hF h
        | other =>
          have := byKind_other hb hk hi
          subst this
          cases h
        | bool =>
          have hkk : isBasicK (W.E t).kind = true := by rw [hk]; rfl
          exact basic_letters L D hkk hv (byKind_basic hb hkk hi) h
        | int =>
          have hkk : isBasicK (W.E t).kind = true := by rw [hk]; rfl
          exact basic_letters L D hkk hv (byKind_basic hb hkk hi) h
        | float =>
          have hkk : isBasicK (W.E t).kind = true := by rw [hk]; rfl
          exact basic_letters L D hkk hv (byKind_basic hb hkk hi) h
        | string =>
          have hkk : isBasicK (W.E t).kind = true := by rw [hk]; rfl
          exact basic_letters L D hkk hv (byKind_basic hb hkk hi) h

end Jettison.Proofs
