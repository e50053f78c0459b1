import Verif.Proofs.First
import Verif.Spec.Cut

/-! # What the loops leave when they fail -/

namespace Jettison.Proofs
open Jettison Jettison.Spec Jettison.Model Jettison.Props

variable {W : World} {o : EncOpts}

/-- How a step goes on from any destination, or fails. -/
theorem pre_fails {f : Bytes → Res} (hf : Pre f) {dst : Bytes} {e : Err} {out : Bytes} (h : f dst = .fail e out) :
    ∃ c, f [] = .fail e c ∧ out = dst ++ c := by
  rw [hf dst] at h
  cases hr : f [] with
  | fail e' c => rw [hr] at h; simp only [Res.after, Res.fail.injEq] at h; exact ⟨c, by rw [h.1], h.2.symm⟩
  | _ => rw [hr] at h; cases h

theorem commas_snoc (x : Bytes) (l : List Bytes) (c : Bytes) : commas (x :: (l ++ [c])) = x ++ b! "," ++ commas (l ++ [c]) := by
  cases l <;> simp [commas]

theorem arrayV_fail {rec : RecV} (hp : ∀ path i v, Pre (rec path i v)) {path : Path} {ins : Instr} {e : Err} :
    ∀ (vs : List Val) (i : Nat) (dst out : Bytes), arrayLoopV rec path ins i vs dst = .fail e out →
      ∃ pre v post bs c path', vs = pre ++ v :: post ∧ bs.length = pre.length ∧
        (∀ (j : Nat) x b, pre[j]? = some x → bs[j]? = some b → ∃ path', rec path' ins x [] = .ok b) ∧ rec path' ins v [] = .fail e c ∧
        out = dst ++ (if i = 0 then b! "[" else b! ",") ++ commas (bs ++ [c])
  | [], i, dst, out, h => by cases h
  | v :: vs, i, dst, out, h => by
    simp only [arrayLoopV] at h
    rcases pre_cases (hp (i :: path) ins v) (dst ++ if i = 0 then b! "[" else b! ",") with ⟨b, h1, h2⟩ | ⟨-, h2⟩
    · rw [h2] at h
      obtain ⟨pre, y, post, bs, c, path', rfl, h3, h4, h5, h6⟩ := arrayV_fail hp vs (i + 1) _ _ h
      refine ⟨v :: pre, y, post, b :: bs, c, path', rfl, by simp [h3], fun j x b' hx hb => ?_, h5, ?_⟩
      · cases j with
        | zero => simp at hx hb; subst hx hb; exact ⟨_, h1⟩
        | succ j => exact h4 j x b' (by simpa using hx) (by simpa using hb)
      · rw [h6, List.cons_append, commas_snoc]
        simp
    · cases hr : rec (i :: path) ins v (dst ++ if i = 0 then b! "[" else b! ",") with
      | ok b => exact absurd hr (h2 b)
      | fail e' b =>
        rw [hr] at h
        cases h
        obtain ⟨c, h3, h4⟩ := pre_fails (hp _ _ _) hr
        exact ⟨[], v, vs, [], c, _, rfl, rfl, by simp, h3, by simp [h4, commas]⟩
      | _ => rw [hr] at h; cases h

/-- The field as one that is never dropped. -/
def plainF (f : FInstr) : FInstr := { f with omitNullMarshaler := false }

theorem structG_fail {α : Type} (o : EncOpts) (get : FInstr → Option (Option α)) {rec : Path → Instr → α → Bytes → Res}
    (hr : ∀ path i p, Pre (rec path i p)) (path : Path) {e : Err} :
    ∀ (fs : List FInstr) (i : Nat) (first : Bool) (dst out : Bytes),
    structLoopG o get rec path i fs first dst = .fail e out →
      ∃ pre f post ms x c path', fs = pre ++ f :: post ∧ Emits get (fun i f x b => rec (i :: path) f.instr x [] = .ok b) i pre ms ∧
        get f = some (some x) ∧ rec path' f.instr x [] = .fail e c ∧
        out ++ b! "}" = dst ++ (if first then objText o (ms ++ [(plainF f, x, c)]) else objTail o (ms ++ [(plainF f, x, c)]))
  | [], i, first, dst, out, h => by cases h
  | f :: fs, i, first, dst, out, h => by
    have ih := structG_fail o get hr path (e := e) fs (i + 1)
    cases hg : get f with
    | none => simp only [structLoopG, hg] at h; cases h
    | some x =>
      cases x with
      | none =>
        simp only [structLoopG, hg] at h
        obtain ⟨pre, f', post, ms, x, c, path', rfl, h1, h2, h3, h4⟩ := ih _ _ _ h
        exact ⟨f :: pre, f', post, ms, x, c, path', rfl, .skip hg h1, h2, h3, h4⟩
      | some fp =>
        obtain ⟨k, hk⟩ := fieldKey_last o f.fld.name
        simp only [structLoopG, hg] at h
        rw [hr _ _ _ (dst ++ _ ++ _)] at h
        cases hx : rec (i :: path) f.instr fp [] with
        | fail e' c =>
          rw [hx] at h
          simp only [Res.after, Res.fail.injEq] at h
          obtain ⟨rfl, rfl⟩ := h
          refine ⟨[], f, fs, [], fp, c, _, rfl, .nil, hg, hx, ?_⟩
          cases first <;> simp [objText, objTail, dropNull, plainF, memberText]
        | ok b =>
          rw [hx] at h
          simp only [Res.after] at h
          have e1 : endsNull (dst ++ (if first = true then b! "{" else b! ",") ++ fieldKey o f.fld.name ++ b) = nullEnd b := by
            rw [hk]; exact endsNull_key _ _ _
          rw [e1] at h
          have key : ∀ d, structLoopG o get rec path (i + 1) fs false d = .fail e out →
              (∀ l, d ++ objTail o l = dst ++ (if first then objText o ((f, fp, b) :: l) else objTail o ((f, fp, b) :: l))) →
              ∃ pre f' post ms x c path', f :: fs = pre ++ f' :: post ∧ Emits get (fun i f x b => rec (i :: path) f.instr x [] = .ok b) i pre ms ∧
                get f' = some (some x) ∧ rec path' f'.instr x [] = .fail e c ∧
                out ++ b! "}" = dst ++ (if first then objText o (ms ++ [(plainF f', x, c)]) else objTail o (ms ++ [(plainF f', x, c)])) := by
            intro d hd hl
            obtain ⟨pre, f', post, ms, x, c, path', rfl, h1, h2, h3, h4⟩ := ih _ _ _ hd
            exact ⟨f :: pre, f', post, (f, fp, b) :: ms, x, c, path', rfl, .emit hg hx h1, h2, h3, by rw [h4]; simpa using hl _⟩
          cases hd : f.omitNullMarshaler && nullEnd b with
          | true =>
            have hd' : dropNull (f, fp, b) = true := hd
            rw [hd] at h
            refine key _ h fun l => ?_
            cases first
            · simp only [Bool.false_eq_true, if_false, objTail, hd', if_true, List.nil_append]
              rw [List.append_assoc, List.append_assoc, List.take_left' rfl]
            · simp only [if_true, objText, hd', List.append_nil]
              have : (dst ++ b! "{" ++ fieldKey o f.fld.name ++ b).take (dst.length + 1) = dst ++ b! "{" := by
                rw [List.append_assoc (dst ++ _), List.take_left' (by simp)]
              rw [this]; simp
          | false =>
            have hd' : dropNull (f, fp, b) = false := hd
            rw [hd] at h
            refine key _ h fun l => ?_
            cases first
            · simp [objTail, hd', memberText]
            · simp [objText, hd', memberText]
        | _ => rw [hx] at h; simp [Res.after] at h

/-- How an entry fails. -/
def EntryFail {α : Type} (o : EncOpts) (kf vf : Nat → α → Bytes → Res) (a : α) (e : Err) (c : Bytes) : Prop :=
  ∃ n, kf n a [] = .fail e c ∨ ∃ k c', kf n a [] = .ok k ∧ (bmHas o.flags .unsortedMap = false → 2 ≤ k.length) ∧ vf n a [] = .fail e c' ∧
    c = k ++ b! ":" ++ c'

theorem unsorted_fail {α : Type} {kf vf : Nat → α → Bytes → Res} (hk : ∀ n a, Pre (kf n a)) (hv : ∀ n a, Pre (vf n a))
    (hu : bmHas o.flags .unsortedMap = true) {e : Err} :
    ∀ (es : List α) (n : Nat) (dst out : Bytes), unsortedLoop kf vf n es dst = .fail e out →
      ∃ (pre : List α) (a : α) (post : List α) (ms : List (Bytes × Bytes)) (c : Bytes), es = pre ++ a :: post ∧ ms.length = pre.length ∧
        (∀ (j : Nat) x m, pre[j]? = some x → ms[j]? = some m → ∃ n, kf n x [] = .ok m.1 ∧ vf n x [] = .ok m.2) ∧ EntryFail o kf vf a e c ∧
        out = dst ++ (if n ≠ 0 then b! "," else []) ++ commas ((ms.map fun m => m.1 ++ b! ":" ++ m.2) ++ [c])
  | [], n, dst, out, h => by cases h
  | a :: es, n, dst, out, h => by
    have hd : (if n ≠ 0 then dst ++ b! "," else dst) = dst ++ if n ≠ 0 then b! "," else [] := by split <;> simp
    simp only [unsortedLoop, hd] at h
    cases hr : kf n a (dst ++ if n ≠ 0 then b! "," else []) with
    | fail e' b =>
      rw [hr] at h
      cases h
      obtain ⟨c, h3, h4⟩ := pre_fails (hk _ _) hr
      exact ⟨[], a, es, [], c, rfl, rfl, by simp, ⟨n, .inl h3⟩, by simp [h4, commas]⟩
    | ok b =>
      rw [hr] at h
      obtain ⟨kb, h1, rfl⟩ := (pre_ok_iff (hk _ _)).mp hr
      simp only at h
      cases hs : vf n a (dst ++ (if n ≠ 0 then b! "," else []) ++ kb ++ b! ":") with
      | fail e' b =>
        rw [hs] at h
        cases h
        obtain ⟨c, h3, h4⟩ := pre_fails (hv _ _) hs
        exact ⟨[], a, es, [], kb ++ b! ":" ++ c, rfl, rfl, by simp, ⟨n, .inr ⟨kb, c, h1, fun h => (by rw [hu] at h; cases h), h3, rfl⟩⟩,
          by simp [h4, commas]⟩
      | ok b =>
        rw [hs] at h
        obtain ⟨vb, h2, rfl⟩ := (pre_ok_iff (hv _ _)).mp hs
        simp only at h
        obtain ⟨pre, y, post, ms, c, rfl, h3, h4, h5, h6⟩ := unsorted_fail hk hv hu es (n + 1) _ _ h
        refine ⟨a :: pre, y, post, (kb, vb) :: ms, c, rfl, by simp [h3], fun j x m hx hm => ?_, h5, ?_⟩
        · cases j with
          | zero => simp at hx hm; subst hx hm; exact ⟨n, h1, h2⟩
          | succ j => exact h4 j x m (by simpa using hx) (by simpa using hm)
        · rw [h6, List.map_cons, List.cons_append, commas_snoc]
          simp
      | _ => rw [hs] at h; cases h
    | _ => rw [hr] at h; cases h

theorem sorted_fail {α : Type} {kf vf : Nat → α → Bytes → Res} (hk : ∀ n a, Pre (kf n a)) (hv : ∀ n a, Pre (vf n a)) {e : Err} :
    ∀ (es : List α) (n : Nat) (buf : Bytes) (mel : List (Bytes × Bytes)) (out : Bytes), sortedLoop kf vf n es buf mel = .stop (.fail e out) →
      ∃ a ∈ es, ∃ c, EntryFail o kf vf a e c
  | [], n, buf, mel, out, h => by cases h
  | a :: es, n, buf, mel, out, h => by
    simp only [sortedLoop] at h
    cases hr : kf n a buf with
    | fail e' b =>
      rw [hr] at h
      cases h
      obtain ⟨c, h3, h4⟩ := pre_fails (hk _ _) hr
      exact ⟨a, by simp, c, n, .inl h3⟩
    | ok b =>
      rw [hr] at h
      obtain ⟨kb, h1, rfl⟩ := (pre_ok_iff (hk _ _)).mp hr
      simp only at h
      split at h
      · cases h
      · next hl =>
        have hl : 2 ≤ kb.length := by simp at hl; omega
        cases hs : vf n a (buf ++ kb ++ b! ":") with
        | fail e' b =>
          rw [hs] at h
          cases h
          obtain ⟨c, h3, h4⟩ := pre_fails (hv _ _) hs
          exact ⟨a, by simp, _, n, .inr ⟨kb, c, h1, fun _ => hl, h3, rfl⟩⟩
        | ok b =>
          rw [hs] at h
          simp only at h
          split at h
          · cases h
          · obtain ⟨y, hy, c, hc⟩ := sorted_fail hk hv es (n + 1) _ _ _ h
            exact ⟨y, by simp [hy], c, hc⟩
        | _ => rw [hs] at h; cases h
    | _ => rw [hr] at h; cases h

theorem entries_fail {α : Type} {kf vf : Nat → α → Bytes → Res} (hk : ∀ n a, Pre (kf n a)) (hv : ∀ n a, Pre (vf n a)) {es : List α}
    {e : Err} {out : Bytes} (h : encodeEntries W o kf vf es [] = .fail e out) :
    (bmHas o.flags .unsortedMap = false ∧ out = b! "{" ∧ ∃ a ∈ es, ∃ c, EntryFail o kf vf a e c) ∨
    (bmHas o.flags .unsortedMap = true ∧
      ∃ (pre : List α) (a : α) (post : List α) (ms : List (Bytes × Bytes)) (c : Bytes), es = pre ++ a :: post ∧ ms.length = pre.length ∧
        (∀ (j : Nat) x m, pre[j]? = some x → ms[j]? = some m → ∃ n, kf n x [] = .ok m.1 ∧ vf n x [] = .ok m.2) ∧ EntryFail o kf vf a e c ∧
        out = b! "{" ++ commas ((ms.map fun m => m.1 ++ b! ":" ++ m.2) ++ [c])) := by
  simp only [encodeEntries] at h
  cases hu : bmHas o.flags .unsortedMap with
  | true =>
    simp only [hu, if_true] at h
    cases hr : unsortedLoop kf vf 0 es ([] ++ b! "{") with
    | fail e' b =>
      rw [hr] at h
      cases h
      obtain ⟨pre, a, post, ms, c, h1, h2, h3, h4, h5⟩ := unsorted_fail hk hv hu es 0 _ _ hr
      exact .inr ⟨rfl, pre, a, post, ms, c, h1, h2, h3, h4, by simpa using h5⟩
    | _ => rw [hr] at h; cases h
  | false =>
    simp only [hu, Bool.false_eq_true, if_false, encodeSorted] at h
    cases hs : sortedLoop kf vf 0 es [] [] with
    | ok l => rw [hs] at h; cases h
    | stop r =>
      rw [hs] at h
      cases r with
      | fail e' b =>
        cases h
        exact .inl ⟨rfl, rfl, sorted_fail hk hv es 0 [] [] b hs⟩
      | _ => cases h

end Jettison.Proofs
