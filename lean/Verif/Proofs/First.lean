import Verif.Proofs.Judged
import Verif.Spec.First

/-! # The first of several faults -/

namespace Jettison.Proofs
open Jettison Jettison.Spec Jettison.Model Jettison.Props

variable {W : World} {H : Heap} {M : MethV} {o : EncOpts} {t t' : TId} {ca ca' : Bool} {v v' : Val} {r r' : Res}

/-- Why an outcome is no success: an error or, `none`, a panic. -/
def reason : Res → Option (Option Err)
  | .fail e _ => some (some e)
  | .panic => some none
  | _ => none

theorem pre_reason {f : Bytes → Res} (hf : Pre f) (dst : Bytes) : reason (f dst) = reason (f []) := by
  rw [hf dst]
  cases f [] <;> rfl

/-! ## Loops -/

theorem arrayV_first {rec : RecV} (hp : ∀ path i v, Pre (rec path i v)) {path : Path} {ins : Instr} {x : Option Err} :
    ∀ (vs : List Val) (i : Nat) (dst : Bytes), reason (arrayLoopV rec path ins i vs dst) = some x →
      ∃ pre v post path', vs = pre ++ v :: post ∧ (∀ u ∈ pre, ∃ path' b, rec path' ins u [] = .ok b) ∧ reason (rec path' ins v []) = some x
  | [], i, dst, h => by cases h
  | v :: vs, i, dst, h => by
    simp only [arrayLoopV] at h
    rcases pre_cases (hp (i :: path) ins v) (dst ++ if i = 0 then b! "[" else b! ",") with ⟨b, h1, h2⟩ | ⟨-, h2⟩
    · rw [h2] at h
      obtain ⟨pre, y, post, path', rfl, h3, h4⟩ := arrayV_first hp vs (i + 1) _ h
      refine ⟨v :: pre, y, post, path', rfl, fun u hu => ?_, h4⟩
      rcases List.mem_cons.mp hu with rfl | hu
      · exact ⟨_, _, h1⟩
      · exact h3 u hu
    · refine ⟨[], v, vs, i :: path, rfl, by simp, ?_⟩
      rw [← pre_reason (hp (i :: path) ins v) (dst ++ if i = 0 then b! "[" else b! ",")]
      generalize rec (i :: path) ins v _ = r at h h2 ⊢
      cases r with
      | ok b => exact absurd rfl (h2 b)
      | _ => exact h

theorem structV_first {rec : RecV} (hp : ∀ path i v, Pre (rec path i v)) {path : Path} {v : Val} {x : Option Err} :
    ∀ (fs : List FInstr) (i : Nat) (first : Bool) (dst : Bytes), reason (structLoopV o rec path v i fs first dst) = some x →
      ∃ pre f post y path', fs = pre ++ f :: post ∧ (∀ g ∈ pre, ∀ z, fieldV o g v = some (some z) → ∃ path' b, rec path' g.instr z [] = .ok b) ∧
        fieldV o f v = some (some y) ∧ reason (rec path' f.instr y []) = some x
  | [], i, first, dst, h => by cases h
  | f :: fs, i, first, dst, h => by
    simp only [structLoopV] at h
    cases hf : fieldV o f v with
    | none => rw [hf] at h; cases h
    | some y =>
      cases y with
      | none =>
        rw [hf] at h
        simp only at h
        obtain ⟨pre, g, post, y, path', rfl, h3, h4⟩ := structV_first hp fs (i + 1) first dst h
        refine ⟨f :: pre, g, post, y, path', rfl, fun g' hg z hz => ?_, h4⟩
        rcases List.mem_cons.mp hg with rfl | hg
        · rw [hf] at hz; cases hz
        · exact h3 g' hg z hz
      | some y =>
        rw [hf] at h
        simp only at h
        rcases pre_cases (hp (i :: path) f.instr y) (dst ++ (if first then b! "{" else b! ",") ++ fieldKey o f.fld.name) with ⟨b, h1, h2⟩ | ⟨-, h2⟩
        · rw [h2] at h
          have key : ∀ d, reason (structLoopV o rec path v (i + 1) fs false d) = some x →
              ∃ pre g post y path', f :: fs = pre ++ g :: post ∧ (∀ g ∈ pre, ∀ z, fieldV o g v = some (some z) → ∃ path' b, rec path' g.instr z [] = .ok b) ∧
                fieldV o g v = some (some y) ∧ reason (rec path' g.instr y []) = some x := by
            intro d hd
            obtain ⟨pre, g, post, y', path', rfl, h3, h4⟩ := structV_first hp fs (i + 1) false d hd
            refine ⟨f :: pre, g, post, y', path', rfl, fun g' hg z hz => ?_, h4⟩
            rcases List.mem_cons.mp hg with rfl | hg
            · rw [hf] at hz; cases hz; exact ⟨_, _, h1⟩
            · exact h3 g' hg z hz
          simp only at h
          split at h <;> split at h <;> exact key _ h
        · refine ⟨[], f, fs, y, i :: path, rfl, by simp, hf, ?_⟩
          rw [← pre_reason (hp (i :: path) f.instr y) (dst ++ (if first then b! "{" else b! ",") ++ fieldKey o f.fld.name)]
          generalize rec (i :: path) f.instr y _ = r at h h2 ⊢
          cases r with
          | ok b => exact absurd rfl (h2 b)
          | _ => exact h

/-- Why one of the entries stops the loop over them. -/
def EntryFirst {α : Type} (o : EncOpts) (kf vf : Nat → α → Bytes → Res) (es : List α) (x : Option Err) : Prop :=
  ∃ a ∈ es, ∃ n, reason (kf n a []) = some x ∨ ∃ k, kf n a [] = .ok k ∧
    ((bmHas o.flags .unsortedMap = false ∧ k.length < 2 ∧ x = none) ∨
      ((bmHas o.flags .unsortedMap = false → 2 ≤ k.length) ∧ reason (vf n a []) = some x))

theorem entryFirst_cons {α : Type} {kf vf : Nat → α → Bytes → Res} {a : α} {es : List α} {x : Option Err} (h : EntryFirst o kf vf es x) :
    EntryFirst o kf vf (a :: es) x := by
  obtain ⟨y, hy, n, h⟩ := h
  exact ⟨y, by simp [hy], n, h⟩

theorem unsorted_first {α : Type} {kf vf : Nat → α → Bytes → Res} (hk : ∀ n a, Pre (kf n a)) (hv : ∀ n a, Pre (vf n a)) {x : Option Err}
    (hu : bmHas o.flags .unsortedMap = true) :
    ∀ (es : List α) (n : Nat) (dst : Bytes), reason (unsortedLoop kf vf n es dst) = some x → EntryFirst o kf vf es x
  | [], n, dst, h => by cases h
  | e :: es, n, dst, h => by
    simp only [unsortedLoop] at h
    rcases pre_cases (hk n e) (if n ≠ 0 then dst ++ b! "," else dst) with ⟨b, h1, h2⟩ | ⟨-, h2⟩
    · rw [h2] at h
      simp only at h
      generalize (if n ≠ 0 then dst ++ b! "," else dst) ++ b = d at h
      rcases pre_cases (hv n e) (d ++ b! ":") with ⟨c, h3, h4⟩ | ⟨-, h4⟩
      · rw [h4] at h
        exact entryFirst_cons (unsorted_first hk hv hu es (n + 1) _ h)
      · refine ⟨e, by simp, n, .inr ⟨b, h1, .inr ⟨fun h => (by rw [hu] at h; cases h), ?_⟩⟩⟩
        rw [← pre_reason (hv n e) (d ++ b! ":")]
        generalize vf n e _ = r at h h4 ⊢
        cases r with
        | ok b => exact absurd rfl (h4 b)
        | _ => exact h
    · refine ⟨e, by simp, n, .inl ?_⟩
      rw [← pre_reason (hk n e) (if n ≠ 0 then dst ++ b! "," else dst)]
      generalize kf n e _ = r at h h2 ⊢
      cases r with
      | ok b => exact absurd rfl (h2 b)
      | _ => exact h

theorem sorted_first {α : Type} {kf vf : Nat → α → Bytes → Res} (hk : ∀ n a, Pre (kf n a)) (hv : ∀ n a, Pre (vf n a)) {x : Option Err}
    (hu : bmHas o.flags .unsortedMap = false) :
    ∀ (es : List α) (n : Nat) (buf : Bytes) (mel : List (Bytes × Bytes)) (r : Res), sortedLoop kf vf n es buf mel = .stop r → reason r = some x →
      EntryFirst o kf vf es x
  | [], n, buf, mel, r, h, hr => by cases h
  | e :: es, n, buf, mel, r, h, hr => by
    simp only [sortedLoop] at h
    rcases pre_cases (hk n e) buf with ⟨b, h1, h2⟩ | ⟨-, h2⟩
    · rw [h2] at h
      simp only at h
      split at h
      · next hlt =>
        cases h
        cases hr
        exact ⟨e, by simp, n, .inr ⟨b, h1, .inl ⟨hu, by simp at hlt; omega, rfl⟩⟩⟩
      · next hlt =>
        have hlen : 2 ≤ b.length := by simp at hlt; omega
        rcases pre_cases (hv n e) (buf ++ b ++ b! ":") with ⟨c, h3, h4⟩ | ⟨-, h4⟩
        · rw [h4] at h
          simp only at h
          rw [if_neg (by simp)] at h
          exact entryFirst_cons (sorted_first hk hv hu es (n + 1) _ _ r h hr)
        · refine ⟨e, by simp, n, .inr ⟨b, h1, .inr ⟨fun _ => hlen, ?_⟩⟩⟩
          rw [← pre_reason (hv n e) (buf ++ b ++ b! ":")]
          generalize vf n e _ = q at h h4 ⊢
          cases q with
          | ok b => exact absurd rfl (h4 b)
          | _ => cases h; exact hr
    · refine ⟨e, by simp, n, .inl ?_⟩
      rw [← pre_reason (hk n e) buf]
      generalize kf n e _ = q at h h2 ⊢
      cases q with
      | ok b => exact absurd rfl (h2 b)
      | _ => cases h; exact hr

theorem entries_first {α : Type} {kf vf : Nat → α → Bytes → Res} (hk : ∀ n a, Pre (kf n a)) (hv : ∀ n a, Pre (vf n a)) {x : Option Err} {es : List α}
    {dst : Bytes} (h : reason (encodeEntries W o kf vf es dst) = some x) : EntryFirst o kf vf es x := by
  simp only [encodeEntries] at h
  cases hu : bmHas o.flags .unsortedMap with
  | true =>
    simp only [hu, if_true] at h
    refine unsorted_first hk hv hu es 0 (dst ++ b! "{") ?_
    generalize unsortedLoop kf vf 0 es (dst ++ b! "{") = r at h ⊢
    cases r with
    | ok b => cases h
    | _ => exact h
  | false =>
    simp only [hu, Bool.false_eq_true, if_false, encodeSorted] at h
    cases hs : sortedLoop kf vf 0 es [] [] with
    | ok l => rw [hs] at h; cases h
    | stop r =>
      rw [hs] at h
      refine sorted_first hk hv hu es 0 [] [] r hs ?_
      cases r with
      | ok b => cases h
      | _ => exact h

/-! ## Values -/

/-- The outcome is that of the first fault. -/
def FirstJ (W : World) (M : MethV) (o : EncOpts) (t : TId) (ca : Bool) (v : Val) (r : Res) : Prop :=
  ∀ x, reason r = some x → First W M o t ca v x

/-- A value of which nothing else is encoded. -/
theorem firstJ_leaf (hJ : Judged W M o t ca v r) (hs : (W.E t).special ≠ some .syncMap)
    (hn : ∀ t' ca' v', ¬ Encodes1 W o t ca v t' ca' v') : FirstJ W M o t ca v r := by
  intro x hx
  have one : ∀ {t' ca' v'}, Encodes W o t ca v t' ca' v' → t' = t ∧ ca' = ca ∧ v' = v := by
    intro t' ca' v' h
    cases h with
    | refl => exact ⟨rfl, rfl, rfl⟩
    | step h => exact absurd h (hn _ _ _)
  cases r with
  | fail e b =>
    cases hx
    obtain ⟨t', ca', v', h1, h2⟩ := hJ.fail e b rfl
    obtain ⟨rfl, rfl, rfl⟩ := one h1
    exact .fault hs h2
  | panic =>
    cases hx
    obtain ⟨t', ca', v', h1, h2⟩ := hJ.panic rfl
    obtain ⟨rfl, rfl, rfl⟩ := one h1
    cases h2 with
    | method a1 a2 a3 a4 => exact .method a1 a2 a3 a4
    | nilElem h => exact absurd h hs
    | skey h => exact absurd h hs
    | key a1 a2 a3 a4 a5 a6 => exact absurd (.elem a1 a2 (.inr (.inr (short_text a6))) a5) (hn _ _ _)
  | _ => cases hx

/-- The claim for depth `n`. -/
def FirstAt (W : World) (H : Heap) (M : MethV) (o : EncOpts) (n : Nat) : Prop :=
  ∀ t ca q i v path, (∃ k, newInstruction W.E k t ca q = some i) → (∃ p, Repr W.E H.mem t p v) → FirstJ W M o t ca v (runV W M o n path i v [])

theorem first_held {n : Nat} (ih : ∀ m, m ≤ n → FirstAt W H M o m) {d : TId} {x : Val} (hx : ∃ p, Repr W.E H.mem d p x) (path : Path) :
    FirstJ W M o d (isPtrK (W.E d).kind) x (appendJSONV W (runV W M o n) path (.iface d x) []) := by
  rcases appendJSONV_made (W := W) (M := M) (o := o) (d := d) (x := x) n path with h | ⟨m, j, hm, hj, h⟩
  · rw [h]; intro _ h; cases h
  · rw [h]; exact ih m hm _ _ _ _ _ _ hj hx

theorem reason_stop {x : Option Err} (h : reason r = some x) : ∀ b, r ≠ .ok b := by
  rintro b rfl; cases h

/-- Keys of maps. -/
theorem first_key (D : FaultReady W H M) {n : Nat} (ih : ∀ m, m ≤ n → FirstAt W H M o m) {kt : TId} {k' : Nat} {ki : Instr}
    (hki : (if isStringK (W.E kt).kind then some .string else newInstruction W.E k' kt false false) = some ki) {y : Val}
    (hx : ∃ p, Repr W.E H.mem kt p y) (path : Path) {x : Option Err} (h : reason (runV W M o n path (wrapKey W.E kt ki) y []) = some x) :
    (W.E kt).kind ≠ .string ∧ ((W.E kt).meths.text = true → IsPtr W.E kt → y ≠ .nil) ∧ First W M o kt false y x := by
  have G := D.ready.types
  obtain ⟨p, hp⟩ := hx
  have hv := repr_hasType hp
  cases n with
  | zero => cases h
  | succ n =>
  by_cases hs : (W.E kt).kind = .string
  · have h1 : isStringK (W.E kt).kind = true := by rw [hs]; rfl
    have h2 : isPtrK (W.E kt).kind = false := by rw [hs]; rfl
    rw [h1] at hki
    simp only [if_true, Option.some.injEq] at hki
    subst hki
    obtain ⟨s, rfl⟩ := has_str G hs hv
    simp only [wrapKey, h1, h2, Bool.not_true, Bool.false_and, Bool.and_false, Bool.false_eq_true, if_false] at h
    cases h
  · have h1 : isStringK (W.E kt).kind = false := by
      cases h : isStringK (W.E kt).kind with
      | false => rfl
      | true => exact absurd (isStringK_iff.mp h) hs
    rw [h1] at hki
    simp only [Bool.false_eq_true, if_false] at hki
    simp only [wrapKey, h1, Bool.not_false, Bool.true_and] at h
    refine ⟨hs, ?_⟩
    cases ht : (W.E kt).meths.text with
    | false =>
      simp only [ht, Bool.not_false, if_true, Bool.false_and, Bool.false_eq_true, if_false] at h
      refine ⟨by simp, ih n (by omega) kt false false ki y path ⟨k', hki⟩ ⟨p, hp⟩ x ?_⟩
      rcases quotes_like (o := o) (pre_runV (contract_long D.fmt) D.honest n path ki y) with ⟨b, b', -, h2, -⟩ | hst
      · rw [h2] at h; cases h
      · generalize runV W M o n path ki y [] = r at hst ⊢
        generalize runV W M o (n + 1) path (.quoted ki) y [] = r' at hst h
        cases hst <;> exact h
    | true =>
      simp only [ht, Bool.not_true, Bool.false_eq_true, if_false, Bool.true_and] at h
      cases hp' : isPtrK (W.E kt).kind with
      | false =>
        simp only [hp', Bool.false_eq_true, if_false] at h
        refine ⟨fun _ hP => ?_, ih (n + 1) (Nat.le_refl _) kt false false ki y path ⟨k', hki⟩ ⟨p, hp⟩ x h⟩
        rw [(isPtr_iff _ _).mp hP] at hp'; cases hp'
      | true =>
        simp only [hp', if_true] at h
        by_cases hn : y = .nil
        · subst hn
          simp only [runV, execV] at h
          cases h
        · have e : runV W M o (n + 1) path (.nilText ki) y [] = runV W M o n path ki y [] := by
            simp only [runV, execV]
          rw [e] at h
          exact ⟨fun _ _ => hn, ih n (by omega) kt false false ki y path ⟨k', hki⟩ ⟨p, hp⟩ x h⟩

theorem skey_bad {d : TId} (hkt : ¬ KeyType W.E d) (rec : RecV) (path : Path) (y : Val) :
    appendSyncMapKeyV W o rec path (.iface d y) [] = .fail (.syncMapKey d) [] := by
  simp only [appendSyncMapKeyV]
  rw [if_pos]
  have : mapKeyOk W.E d = false := Bool.eq_false_iff.mpr fun h => hkt ((mapKeyOk_iff _ _).mp h)
  revert this
  simp only [mapKeyOk]
  cases isStringK (W.E d).kind <;> cases isInteger (W.E d).kind <;> cases (W.E d).meths.text <;> simp

/-- Keys of a `sync.Map`. -/
theorem first_skey (D : FaultReady W H M) {n : Nat} (ih : ∀ m, m ≤ n → FirstAt W H M o m) {kt : TId} (hkt : KeyType W.E kt) {y : Val}
    (hx : ∃ p, Repr W.E H.mem kt p y) (path : Path) {x : Option Err} (h : reason (appendSyncMapKeyV W o (runV W M o n) path (.iface kt y) []) = some x) :
    (W.E kt).kind ≠ .string ∧ First W M o kt (isPtrK (W.E kt).kind) y x := by
  have G := D.ready.types
  obtain ⟨p, hp⟩ := hx
  have hv := repr_hasType hp
  have hok := (mapKeyOk_iff W.E kt).mpr hkt
  simp only [mapKeyOk] at hok
  simp only [appendSyncMapKeyV] at h
  rw [if_neg (by revert hok; cases isStringK (W.E kt).kind <;> cases isInteger (W.E kt).kind <;> cases (W.E kt).meths.text <;> simp)] at h
  by_cases hs : (W.E kt).kind = .string
  · obtain ⟨s, rfl⟩ := has_str G hs hv
    rw [if_pos (isStringK_iff.mpr hs)] at h
    cases h
  · have h1 : isStringK (W.E kt).kind = false := by
      cases h : isStringK (W.E kt).kind with
      | false => rfl
      | true => exact absurd (isStringK_iff.mp h) hs
    rw [h1] at h
    simp only [Bool.false_eq_true, if_false, Bool.not_false, Bool.true_and] at h
    refine ⟨hs, first_held ih ⟨p, hp⟩ path x ?_⟩
    have hpre := pre_appendJSONV (W := W) (pre_runV (o := o) (contract_long D.fmt) D.honest n) path (.iface kt y)
    rw [← pre_reason hpre (if (!(W.E kt).meths.text) = true then [] ++ b! "\"" else [])]
    generalize appendJSONV W (runV W M o n) path (.iface kt y) _ = q at h ⊢
    cases q with
    | ok b => simp only at h; split at h <;> cases h
    | _ => exact h

theorem first_smap (D : FaultReady W H M) (hM : PathFree M) {n : Nat} (ih : ∀ m, m ≤ n → FirstAt W H M o m) (hs : (W.E t).special = some .syncMap)
    {kvs : List (Val × Val)} (h1 : ∀ kv ∈ kvs, ∃ e, ReprE W.E H.mem e kv.1) (h2 : ∀ kv ∈ kvs, ∃ e, ReprE W.E H.mem e kv.2) (path : Path) :
    FirstJ W M o t ca (.smap kvs) (encodeSpecialV W o (runV W M o n) path .syncMap (.smap kvs) []) := by
  have hpre := pre_runV (W := W) (M := M) (o := o) (contract_long D.fmt) D.honest n
  intro x hx
  simp only [encodeSpecialV] at hx
  obtain ⟨a, ha, n', hst⟩ := entries_first (fun n' e => pre_syncMapKeyV hpre _ _) (fun n' e => pre_appendJSONV hpre _ _) hx
  dsimp only at hst
  have ha' := visit_mem ha
  obtain ⟨e, he⟩ := h1 _ ha'
  rcases reprE_cases he with h | ⟨d, y, h, hp⟩
  · rw [h] at hst
    simp only [appendSyncMapKeyV] at hst
    rcases hst with hst | ⟨k, hk, -⟩
    · cases hst; exact .nilKey hs ha' h
    · cases hk
  · rw [h] at hst
    by_cases hkt : KeyType W.E d
    · rcases hst with hst | ⟨k, hk, hst⟩
      · obtain ⟨a1, a2⟩ := first_skey D ih hkt hp _ hst
        exact .skey hs ha' h hkt a1 a2
      · have KJ := judged_skey (o := o) D (judged_upto D n) hkt hp ((2 * n') :: path)
        rcases hst with ⟨hu, hl, rfl⟩ | ⟨hl, hst⟩
        · obtain ⟨a1, a2⟩ := KJ.short _ hk hl
          exact .sshort hs hu ha' h a1 (KJ.clean _ hk hM a1 trivial) a2
        · have hpass : SyncKeyPasses W M o a.1 := ⟨d, y, h, hkt, fun a1 => ⟨KJ.clean _ hk hM a1 trivial, fun hu hsk => by
            have := KJ.long _ hk hM a1 hsk
            have := hl hu
            omega⟩⟩
          obtain ⟨e, he⟩ := h2 _ ha'
          rcases reprE_cases he with h' | ⟨d', y', h', hp'⟩
          · rw [h'] at hst
            simp only [appendJSONV] at hst
            cases hst
            exact .nilElem hs ha' hpass h'
          · rw [h'] at hst
            exact .selem hs ha' hpass h' (first_held ih hp' _ x hst)
    · rw [skey_bad hkt] at hst
      rcases hst with hst | ⟨k, hk, -⟩
      · cases hst; exact .badKey hs ha' h hkt
      · cases hk

theorem first_map (D : FaultReady W H M) (hM : PathFree M) {n : Nat} (ih : ∀ m, m ≤ n → FirstAt W H M o m) (hb : ByKind W.E t ca) {kt et : TId}
    (hk : (W.E t).kind = .map kt et)
    (hx : ∃ p, Repr W.E H.mem t p v) {q : Bool} {i : Instr} {k : Nat} (hi : newInstruction W.E k t ca q = some i) (path : Path) :
    FirstJ W M o t ca v (runV W M o (n + 1) path i v []) := by
  obtain ⟨p, hp⟩ := hx
  have hsp := hb.special
  cases hm : mapKeyOk W.E kt with
  | false =>
    have := byKind_badMap hb hk hm hi
    subst this
    intro x hx
    cases hx
    exact .fault (by rw [hsp]; nofun) (.typ hb (.inr ⟨kt, et, hk, fun h => by rw [(mapKeyOk_iff W.E kt).mpr h] at hm; cases hm⟩))
  | true =>
    have hkt := (mapKeyOk_iff W.E kt).mp hm
    obtain ⟨k', ki, vi, hki, hvi, rfl⟩ := byKind_map hb hk hm hi
    rcases repr_map D.ready.types hk hp with ⟨rfl, -⟩ | ⟨a, es, kvs, rfl, -, -, -, hlen, h1, h2⟩
    · intro x hx
      simp only [runV, execV] at hx
      split at hx <;> cases hx
    · have hmem : ∀ kv ∈ kvs, (∃ p, Repr W.E H.mem kt p kv.1) ∧ ∃ p, Repr W.E H.mem et p kv.2 := fun kv hkv => by
        obtain ⟨i, hi⟩ := List.mem_iff_getElem?.mp hkv
        have hil : i < es.length := by
          have := (List.getElem?_eq_some_iff.mp hi).1
          omega
        exact ⟨⟨_, h1 i es[i] kv (List.getElem?_eq_getElem hil) hi⟩, ⟨_, h2 i es[i] kv (List.getElem?_eq_getElem hil) hi⟩⟩
      intro x hx
      simp only [runV, execV] at hx
      split at hx
      · cases hx
      · have hpre := pre_runV (W := W) (M := M) (o := o) (contract_long D.fmt) D.honest n
        obtain ⟨a, ha, m, hst⟩ := entries_first (kf := fun m (e : Val × Val) dst => runV W M o n ((2 * m) :: path) (wrapKey W.E kt ki) e.1 dst)
          (vf := fun m e dst => runV W M o n ((2 * m + 1) :: path) vi e.2 dst) (fun m e => hpre _ _ _) (fun m e => hpre _ _ _) hx
        have ha' := visit_mem ha
        obtain ⟨hp1, hp2⟩ := hmem a ha'
        rcases hst with hst | ⟨k, hk1, hst⟩
        · obtain ⟨a1, a2, a3⟩ := first_key D ih hki hp1 _ hst
          exact .key hb hk hkt a1 a2 ha' a3
        · have KJ := judged_key (o := o) D (judged_upto D n) hki hp1 ((2 * m) :: path)
          rcases hst with ⟨hu, hl, rfl⟩ | ⟨hl, hst⟩
          · obtain ⟨a1, a2⟩ := KJ.short _ hk1 hl
            exact .short hb hk a1 hu ha' (KJ.clean _ hk1 hM a1) a2
          · refine .elem hb hk hkt ha' (fun a1 => ⟨KJ.clean _ hk1 hM a1, fun hu hsk => ?_⟩) (ih n (Nat.le_refl _) et false false vi _ _ ⟨_, hvi⟩ hp2 x hst)
            have := KJ.long _ hk1 hM a1 hsk
            have := hl hu
            omega

theorem first_struct (D : FaultReady W H M) (hM : PathFree M) {n : Nat} (ih : ∀ m, m ≤ n → FirstAt W H M o m) (hb : ByKind W.E t ca) (hs : IsStruct W.E t)
    (hx : ∃ p, Repr W.E H.mem t p v) {q : Bool} {i : Instr} {k : Nat} (hi : newInstruction W.E k t ca q = some i) (path : Path) :
    FirstJ W M o t ca v (runV W M o (n + 1) path i v []) := by
  have R := D.ready
  have hst := hs
  obtain ⟨fs, hk⟩ := hs
  obtain ⟨p, hp⟩ := hx
  have := byKind_struct hb hk hi
  subst this
  intro x hx
  simp only [runV, execV] at hx
  split at hx
  · cases hx
  · split at hx
    · cases hx
    · next flds hflds =>
      obtain ⟨fl, g, hfld, hmem, -, hspec⟩ := struct_fields (o := o) R hst hp hflds
      have hpre := pre_runV (W := W) (M := M) (o := o) (contract_long D.fmt) D.honest n
      obtain ⟨pre, f, post, y, path', rfl, h1, h2, h3⟩ := structV_first hpre flds 0 true [] hx
      rcases hspec f (by simp) with ⟨z, -⟩ | ⟨y', z1, z2, z3, z4, q', z5⟩
      · rw [h2] at z; cases z
      · rw [h2] at z1; cases z1
        refine .field (pre := pre.map fun f => g f.fld) (m := g f.fld) (post := post.map fun f => g f.fld) hb hst hmem ?_ ?_ z2 z3
          (ih n (Nat.le_refl _) _ _ q' _ _ path' z5 z4 x h3)
        · rw [← hfld]; simp [Function.comp_def]
        · intro m' hm' hno y' hy'
          obtain ⟨f', hf', rfl⟩ := List.mem_map.mp hm'
          rcases hspec f' (by simp [hf']) with ⟨-, z⟩ | ⟨w, w1, w2, w3, w4, q'', w5⟩
          · exact absurd z hno
          · have : w = y' := by
              have a1 := fieldAt_iff.mp w3
              have a2 := fieldAt_iff.mp hy'
              rw [a1] at a2; cases a2; rfl
            subst this
            obtain ⟨path'', b', h4⟩ := h1 f' hf' _ w1
            exact (judged_upto (o := o) D n n (Nat.le_refl _) _ _ q'' _ _ path'' w5 w4).ok _ h4 hM

theorem first_elems (D : FaultReady W H M) (hM : PathFree M) {n : Nat} (ih : ∀ m, m ≤ n → FirstAt W H M o m) {e : TId} {c : Bool} {j : Instr} {k' : Nat}
    (hj : newInstruction W.E k' e c false = some j) {vs : List Val} (hmem : ∀ x ∈ vs, ∃ p, Repr W.E H.mem e p x) {path : Path} {x : Option Err}
    (h : reason (arrayLoopV (runV W M o n) path j 0 vs []) = some x) :
    ∃ pre v post, vs = pre ++ v :: post ∧ (∀ u ∈ pre, Blameless W M o e c u) ∧ First W M o e c v x := by
  obtain ⟨pre, y, post, path', rfl, h1, h2⟩ := arrayV_first (pre_runV (W := W) (M := M) (o := o) (contract_long D.fmt) D.honest n) vs 0 [] h
  refine ⟨pre, y, post, rfl, fun u hu => ?_, ih n (Nat.le_refl _) _ _ false _ _ path' ⟨_, hj⟩ (hmem y (by simp)) x h2⟩
  obtain ⟨path'', b, h3⟩ := h1 u hu
  exact (judged_upto (o := o) D n n (Nat.le_refl _) _ _ false _ _ path'' ⟨_, hj⟩ (hmem u (by simp [hu]))).ok _ h3 hM

/-! ## All values -/

theorem first_upto (D : FaultReady W H M) (hM : PathFree M) : ∀ n, ∀ m, m ≤ n → FirstAt W H M o m := by
  intro n
  induction n with
  | zero =>
    intro m hm
    have : m = 0 := by omega
    subst this
    intro t ca q i v path _ _ x h
    cases h
  | succ n ih =>
    intro m hm
    by_cases hmn : m ≤ n
    · exact ih m hmn
    have : m = n + 1 := by omega
    subst this
    intro t ca q i v path ⟨k, hi⟩ ⟨p, hp⟩
    have G := D.ready.types
    have hv := repr_hasType hp
    have hJ := judged_upto (o := o) D (n + 1) (n + 1) (Nat.le_refl _) t ca q i v path ⟨k, hi⟩ ⟨p, hp⟩
    cases hs : (W.E t).special with
    | some s =>
      have := special_made hs hi
      subst this
      by_cases hsm : s = .syncMap
      · subst hsm
        obtain ⟨es, kvs, rfl, -, hlen, h1, h2⟩ := repr_smap G hs hp
        have hmem : ∀ kv ∈ kvs, (∃ e, ReprE W.E H.mem e kv.1) ∧ ∃ e, ReprE W.E H.mem e kv.2 := fun kv hkv => by
          obtain ⟨i, hi⟩ := List.mem_iff_getElem?.mp hkv
          have hil : i < es.length := by
            have := (List.getElem?_eq_some_iff.mp hi).1
            omega
          exact ⟨⟨_, h1 i es[i] kv (List.getElem?_eq_getElem hil) hi⟩, ⟨_, h2 i es[i] kv (List.getElem?_eq_getElem hil) hi⟩⟩
        exact first_smap D hM ih hs (fun kv h => (hmem kv h).1) (fun kv h => (hmem kv h).2) path
      · refine firstJ_leaf hJ (by rw [hs]; simpa using hsm) fun t' ca' v' h1 => ?_
        rcases encodes1_kind h1 with h | h
        · have := h.special; rw [hs] at this; cases this
        · rw [hs] at h; cases h; exact hsm rfl
    | none =>
      have hns : (W.E t).special ≠ some .syncMap := by rw [hs]; nofun
      rcases picks_or_byKind (ca := ca) hs with hb | ⟨m, hpk⟩
      rotate_left
      · refine firstJ_leaf hJ hns fun t' ca' v' h1 => ?_
        rcases encodes1_kind h1 with h | h
        · exact picks_byKind hpk h
        · exact hns h
      · have leaf : (∀ fs, (W.E t).kind ≠ .struct fs) → (∀ x, v = .ptr x → ∀ e, (W.E t).kind ≠ .ptr e) → (∀ d x, v = .iface d x → ∀ e, (W.E t).kind ≠ .iface e) →
            (∀ xs, v = .slice xs → ∀ e, (W.E t).kind ≠ .slice e) → (∀ xs, v = .array xs → ∀ n e, (W.E t).kind ≠ .array n e) →
            (∀ xs, v = .map xs → ∀ n e, (W.E t).kind ≠ .map n e) → FirstJ W M o t ca v (runV W M o (n + 1) path i v []) := by
          intro a1 a2 a3 a4 a5 a6
          refine firstJ_leaf hJ hns fun t' ca' v' h1 => ?_
          cases h1 with
          | ptr _ h => exact a2 _ rfl _ h
          | iface _ h => exact a3 _ _ rfl _ h
          | slice _ h => exact a4 _ rfl _ h
          | array _ h => exact a5 _ rfl _ _ h
          | key _ h => exact a6 _ rfl _ _ h
          | elem _ h => exact a6 _ rfl _ _ h
          | field _ h => obtain ⟨fs, h⟩ := h; exact a1 fs h
          | skey h => exact hns h
          | selem h => exact hns h
        cases hk : (W.E t).kind with
        | ptr e =>
          rcases repr_ptr G hk hp with ⟨rfl, -⟩ | ⟨a, x, rfl, -, -, hx⟩
          · exact leaf (by simp [hk]) (by simp) (by simp) (by simp) (by simp) (by simp)
          · obtain ⟨k', j, hj, rfl⟩ := byKind_ptr hb hk hi
            intro y hy
            exact .ptr hb hk (ih n (Nat.le_refl _) e true q j x path ⟨_, hj⟩ ⟨_, hx⟩ y hy)
        | iface e =>
          obtain ⟨y, -, hy⟩ := repr_iface G hk hp
          rcases reprE_cases hy with rfl | ⟨d, x, rfl, hx⟩
          · exact leaf (by simp [hk]) (by simp) (by simp) (by simp) (by simp) (by simp)
          · have := byKind_iface hb hk hi
            subst this
            intro y hy
            exact .iface hb hk (first_held ih hx path y hy)
        | slice e =>
          cases he : isByteElem W.E e with
          | true =>
            refine firstJ_leaf hJ hns fun t' ca' v' h1 => ?_
            have hB := (isByteElem_iff W.E e).mp he
            cases h1 with
            | slice _ hk' hne => rw [hk] at hk'; cases hk'; exact absurd hB hne
            | field _ h => obtain ⟨fs, h⟩ := h; replace h : (W.E t).kind = .struct fs := h; rw [hk] at h; cases h
            | skey h => exact hns h
            | selem h => exact hns h
            | _ => simp_all
          | false =>
            have hB : ¬ ByteElem W.E e := fun h => by rw [(isByteElem_iff W.E e).mpr h] at he; cases he
            obtain ⟨k', j, hj, rfl⟩ := byKind_slice hb hk he hi
            rcases repr_slice G hk hp with ⟨rfl, -⟩ | ⟨d, vs, rfl, -, -, hall⟩
            · exact leaf (by simp [hk]) (by simp) (by simp) (by simp) (by simp) (by simp)
            · intro x hx
              simp only [runV, execV, encodeArrayV, Bool.false_and, Bool.false_eq_true, if_false] at hx
              split at hx
              · cases hx
              · obtain ⟨pre, y, post, rfl, h1, h2⟩ := first_elems D hM ih hj (fun x hx => by
                  obtain ⟨i, hi⟩ := List.mem_iff_getElem?.mp hx
                  exact ⟨_, hall i x hi⟩) hx
                exact .slice hb hk hB rfl h1 h2
        | array l e =>
          obtain ⟨k', j, hj, rfl⟩ := byKind_array hb hk hi
          obtain ⟨vs, rfl, -, hall⟩ := repr_array G hk hp
          intro x hx
          simp only [runV, execV, encodeArrayV] at hx
          by_cases hc : (isByteElem W.E e && bmHas o.flags .byteArrayAsString) = true
          · rw [if_pos hc] at hx
            cases hb' : bytesOf vs with
            | none => rw [hb'] at hx; cases hx
            | some b => rw [hb'] at hx; cases hx
          · rw [if_neg hc] at hx
            have hB : ¬ (ByteElem W.E e ∧ bmHas o.flags .byteArrayAsString = true) := fun h => hc (by
              rw [Bool.and_eq_true, isByteElem_iff]; exact h)
            obtain ⟨pre, y, post, rfl, h1, h2⟩ := first_elems D hM ih hj (fun x hx => by
              obtain ⟨i, hi⟩ := List.mem_iff_getElem?.mp hx
              exact ⟨_, hall i x hi⟩) hx
            exact .array hb hk hB rfl h1 h2
        | map kt et => exact first_map D hM ih hb hk ⟨p, hp⟩ hi path
        | struct fs => exact first_struct D hM ih hb ⟨fs, hk⟩ ⟨p, hp⟩ hi path
        | other => exact leaf (by simp [hk]) (by simp [hk]) (by simp [hk]) (by simp [hk]) (by simp [hk]) (by simp [hk])
        | bool => exact leaf (by simp [hk]) (by simp [hk]) (by simp [hk]) (by simp [hk]) (by simp [hk]) (by simp [hk])
        | int => exact leaf (by simp [hk]) (by simp [hk]) (by simp [hk]) (by simp [hk]) (by simp [hk]) (by simp [hk])
        | float => exact leaf (by simp [hk]) (by simp [hk]) (by simp [hk]) (by simp [hk]) (by simp [hk]) (by simp [hk])
        | string => exact leaf (by simp [hk]) (by simp [hk]) (by simp [hk]) (by simp [hk]) (by simp [hk]) (by simp [hk])

end Jettison.Proofs
