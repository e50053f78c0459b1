import Verif.Proofs.PrefixRun
import Verif.Spec.Text

/-! # What the loops over fields, elements and entries write -/

namespace Jettison.Proofs
open Jettison Jettison.Model Jettison.Spec

/-! ## Fields -/

/-- The fields that are encoded, with the text of their values. -/
inductive Emits {α : Type} (get : FInstr → Option (Option α)) (txt : Nat → FInstr → α → Bytes → Prop) :
    Nat → List FInstr → List (FInstr × α × Bytes) → Prop
  | nil {i} : Emits get txt i [] []
  | skip {i f fs ms} : get f = some none → Emits get txt (i + 1) fs ms → Emits get txt i (f :: fs) ms
  | emit {i f fs ms x b} : get f = some (some x) → txt i f x b → Emits get txt (i + 1) fs ms →
      Emits get txt i (f :: fs) ((f, x, b) :: ms)

/-- The member is dropped because its text ends in `null`. -/
def dropNull {α : Type} (m : FInstr × α × Bytes) : Bool := m.1.omitNullMarshaler && nullEnd m.2.2

/-- The text of a member. -/
def memberText {α : Type} (o : EncOpts) (m : FInstr × α × Bytes) : Bytes := fieldKey o m.1.fld.name ++ m.2.2

/-- The text after the first member. -/
def objTail {α : Type} (o : EncOpts) : List (FInstr × α × Bytes) → Bytes
  | [] => b! "}"
  | m :: ms => (if dropNull m then [] else b! "," ++ memberText o m) ++ objTail o ms

/-- The text of the object. -/
def objText {α : Type} (o : EncOpts) : List (FInstr × α × Bytes) → Bytes
  | [] => b! "{}"
  | m :: ms => b! "{" ++ (if dropNull m then [] else memberText o m) ++ objTail o ms

theorem structG_ok {α : Type} (o : EncOpts) (get : FInstr → Option (Option α)) {rec : Path → Instr → α → Bytes → Res}
    (hr : ∀ path i p, Pre (rec path i p)) (path : Path) :
    ∀ (fs : List FInstr) (i : Nat) (first : Bool) (dst out : Bytes),
    structLoopG o get rec path i fs first dst = .ok out ↔
      ∃ ms, Emits get (fun i f x b => rec (i :: path) f.instr x [] = .ok b) i fs ms ∧
        out = dst ++ (if first then objText o ms else objTail o ms)
  | [], i, first, dst, out => by
    constructor
    · intro h
      refine ⟨[], .nil, ?_⟩
      simp only [structLoopG] at h
      cases first <;> simp [objText, objTail] at h ⊢ <;> exact h.symm
    · rintro ⟨ms, hm, rfl⟩
      cases hm
      cases first <;> simp [structLoopG, objText, objTail]
  | f :: fs, i, first, dst, out => by
    have ih := structG_ok o get hr path fs (i + 1)
    cases hg : get f with
    | none =>
      simp only [structLoopG, hg]
      constructor
      · simp
      · rintro ⟨ms, hm, _⟩
        cases hm with
        | skip h => rw [hg] at h; simp at h
        | emit h => rw [hg] at h; simp at h
    | some x =>
      cases x with
      | none =>
        simp only [structLoopG, hg, ih]
        constructor
        · rintro ⟨ms, hm, h⟩; exact ⟨ms, .skip hg hm, h⟩
        · rintro ⟨ms, hm, h⟩
          cases hm with
          | skip _ hm => exact ⟨ms, hm, h⟩
          | emit h1 => rw [hg] at h1; simp at h1
      | some fp =>
        obtain ⟨k, hk⟩ := fieldKey_last o f.fld.name
        simp only [structLoopG, hg]
        rw [hr _ _ _ (dst ++ _ ++ _)]
        have key : ∀ b, rec (i :: path) f.instr fp [] = .ok b →
            ((if (f.omitNullMarshaler && endsNull (dst ++ (if first = true then b! "{" else b! ",") ++ fieldKey o f.fld.name ++ b)) = true
              then structLoopG o get rec path (i + 1) fs false ((dst ++ (if first = true then b! "{" else b! ",") ++
                fieldKey o f.fld.name ++ b).take (if first = true then dst.length + 1 else dst.length))
              else structLoopG o get rec path (i + 1) fs false (dst ++ (if first = true then b! "{" else b! ",") ++
                fieldKey o f.fld.name ++ b)) = .ok out ↔
            ∃ ms, Emits get (fun i f x b => rec (i :: path) f.instr x [] = .ok b) (i + 1) fs ms ∧
              out = dst ++ if first = true then objText o ((f, fp, b) :: ms) else objTail o ((f, fp, b) :: ms)) := by
          intro b hb
          have e1 : endsNull (dst ++ (if first = true then b! "{" else b! ",") ++ fieldKey o f.fld.name ++ b) = nullEnd b := by
            rw [hk]; exact endsNull_key _ _ _
          rw [e1]
          cases hd : f.omitNullMarshaler && nullEnd b with
          | true =>
            have hd' : dropNull (f, fp, b) = true := hd
            simp only [if_true]
            rw [ih]
            cases first
            · simp only [Bool.false_eq_true, if_false, objTail, hd', if_true, List.nil_append]
              rw [List.append_assoc, List.append_assoc, List.take_left' rfl]
            · simp only [if_true, objText, hd', List.append_nil, Bool.false_eq_true, if_false]
              have : (dst ++ b! "{" ++ fieldKey o f.fld.name ++ b).take (dst.length + 1) = dst ++ b! "{" := by
                rw [List.append_assoc (dst ++ _), List.take_left' (by simp)]
              rw [this]; simp
          | false =>
            have hd' : dropNull (f, fp, b) = false := hd
            simp only [Bool.false_eq_true, if_false]
            rw [ih]
            cases first
            · simp [objTail, hd', memberText]
            · simp [objText, hd', memberText]
        constructor
        · intro h
          cases hx : rec (i :: path) f.instr fp [] with
          | ok b =>
            rw [hx] at h
            obtain ⟨ms, hm, h'⟩ := (key b hx).mp h
            exact ⟨_, .emit hg hx hm, h'⟩
          | _ => rw [hx] at h; simp [Res.after] at h
        · rintro ⟨ms, hm, h⟩
          cases hm with
          | skip h => rw [hg] at h; simp at h
          | emit h1 hx hm =>
            rw [hg] at h1
            simp only [Option.some.injEq] at h1
            subst h1
            rw [hx]
            exact (key _ hx).mpr ⟨_, hm, h⟩

theorem objTail_eq {α : Type} (o : EncOpts) : ∀ ms : List (FInstr × α × Bytes),
    objTail o ms = ((ms.filter (!dropNull ·)).map fun m => b! "," ++ memberText o m).flatten ++ b! "}"
  | [] => by simp [objTail]
  | m :: ms => by
    simp only [objTail, objTail_eq o ms]
    cases h : dropNull m <;> simp [h]

theorem commas_cons (x : Bytes) (l : List Bytes) : commas (x :: l) = x ++ (l.map (b! "," ++ ·)).flatten := by
  induction l generalizing x with
  | nil => simp [commas]
  | cons y l ih => simp only [commas, ih]; simp

/-- The object is well formed when the first field encoded is kept. -/
theorem objText_eq {α : Type} (o : EncOpts) (ms : List (FInstr × α × Bytes))
    (h : ∀ m, ms.head? = some m → dropNull m = true → ∀ m' ∈ ms, dropNull m' = true) :
    objText o ms = b! "{" ++ commas ((ms.filter (!dropNull ·)).map (memberText o)) ++ b! "}" := by
  cases ms with
  | nil => simp [objText, commas]
  | cons m ms =>
    simp only [objText, objTail_eq]
    cases hd : dropNull m with
    | false => simp [hd, commas_cons, List.map_map, Function.comp_def]
    | true =>
      have : (m :: ms).filter (!dropNull ·) = [] := by
        rw [List.filter_eq_nil_iff]
        intro m' hm'
        simp [h m rfl hd m' hm']
      have h2 : ms.filter (!dropNull ·) = [] := by
        rw [List.filter_cons] at this
        simpa [hd] using this
      simp [this, h2, commas]

/-- In general a comma is left of a first field that is dropped. -/
theorem objText_lead {α : Type} (o : EncOpts) (ms : List (FInstr × α × Bytes)) :
    ∃ c : Bytes, objText o ms = b! "{" ++ c ++ commas ((ms.filter (!dropNull ·)).map (memberText o)) ++ b! "}" ∧
      ((c = [] ∧ ∀ m, ms.head? = some m → dropNull m = true → ms.filter (!dropNull ·) = []) ∨
        (c = b! "," ∧ ms.filter (!dropNull ·) ≠ [] ∧ ∃ m, ms.head? = some m ∧ dropNull m = true)) := by
  cases ms with
  | nil => exact ⟨[], by simp [objText, commas], .inl ⟨rfl, by simp⟩⟩
  | cons m ms =>
    simp only [objText, objTail_eq]
    cases hd : dropNull m with
    | false => exact ⟨[], by simp [hd, commas_cons, List.map_map, Function.comp_def], .inl ⟨rfl, by simp [hd]⟩⟩
    | true =>
      have h2 : (m :: ms).filter (!dropNull ·) = ms.filter (!dropNull ·) := by rw [List.filter_cons]; simp [hd]
      rw [h2]
      cases hf : ms.filter (!dropNull ·) with
      | nil => exact ⟨[], by simp [commas], .inl ⟨rfl, fun _ _ _ => rfl⟩⟩
      | cons k ks => exact ⟨b! ",", by simp [commas_cons, List.map_map, Function.comp_def], .inr ⟨rfl, by simp, m, rfl, hd⟩⟩

theorem emits_fields {α : Type} {get : FInstr → Option (Option α)} {txt : Nat → FInstr → α → Bytes → Prop} :
    ∀ {i : Nat} {fs : List FInstr} {ms : List (FInstr × α × Bytes)}, Emits get txt i fs ms →
    ms.map Prod.fst = fs.filter (fun f => match get f with | some (some _) => true | _ => false) ∧
      ∀ m ∈ ms, m.1 ∈ fs ∧ get m.1 = some (some m.2.1) ∧ ∃ j, txt j m.1 m.2.1 m.2.2
  | _, _, _, .nil => by simp
  | _, _, _, .skip (fs := fs) h hm => by
    obtain ⟨h1, h2⟩ := emits_fields hm
    refine ⟨by simp [h, h1], fun m hm => ?_⟩
    obtain ⟨a, b, c⟩ := h2 m hm
    exact ⟨by simp [a], b, c⟩
  | _, _, _, .emit (fs := fs) h ht hm => by
    obtain ⟨h1, h2⟩ := emits_fields hm
    refine ⟨by simp [h, h1], fun m hm => ?_⟩
    simp only [List.mem_cons] at hm
    rcases hm with rfl | hm
    · exact ⟨by simp, h, _, ht⟩
    · obtain ⟨a, b, c⟩ := h2 m hm
      exact ⟨by simp [a], b, c⟩

/-! ## Elements -/

theorem arrayV_ok {rec : RecV} (hr : ∀ path i v, Pre (rec path i v)) (path : Path) (ins : Instr) :
    ∀ (vs : List Val) (i : Nat) (dst out : Bytes), arrayLoopV rec path ins i vs dst = .ok out ↔
      ∃ ts : List Bytes, ts.length = vs.length ∧
        (∀ (j : Nat) v t, vs[j]? = some v → ts[j]? = some t → rec ((i + j) :: path) ins v [] = .ok t) ∧
        out = dst ++ (if i = 0 then b! "[" ++ commas ts ++ b! "]" else (ts.map (b! "," ++ ·)).flatten ++ b! "]")
  | [], i, dst, out => by
    simp only [arrayLoopV]
    constructor
    · intro h
      refine ⟨[], rfl, by simp, ?_⟩
      split at h <;> simp_all [commas]
    · rintro ⟨ts, h1, -, rfl⟩
      simp at h1; subst h1
      split <;> simp [commas]
  | v :: vs, i, dst, out => by
    have ih := arrayV_ok hr path ins vs (i + 1)
    simp only [arrayLoopV]
    rw [hr _ _ _ (dst ++ _)]
    constructor
    · intro h
      cases hx : rec (i :: path) ins v [] with
      | ok b =>
        rw [hx] at h
        simp only [Res.after] at h
        obtain ⟨ts, h1, h2, h3⟩ := (ih _ _).mp h
        refine ⟨b :: ts, by simp [h1], ?_, ?_⟩
        · intro j w t hw ht
          cases j with
          | zero => simp at hw ht; subst hw ht; simpa using hx
          | succ j =>
            simp at hw ht
            have := h2 j w t hw ht
            rw [show i + (j + 1) = i + 1 + j by omega]; exact this
        · rw [h3]
          by_cases h0 : i = 0
          · simp [h0, commas_cons]
          · simp [h0]
      | _ => rw [hx] at h; simp [Res.after] at h
    · rintro ⟨ts, h1, h2, rfl⟩
      cases ts with
      | nil => simp at h1
      | cons b ts =>
        have hx : rec (i :: path) ins v [] = .ok b := by simpa using h2 0 v b rfl rfl
        rw [hx]
        simp only [Res.after]
        refine (ih _ _).mpr ⟨ts, by simpa using h1, ?_, ?_⟩
        · intro j w t hw ht
          have := h2 (j + 1) w t (by simpa using hw) (by simpa using ht)
          rw [show i + 1 + j = i + (j + 1) by omega]; exact this
        · by_cases h0 : i = 0
          · simp [h0, commas_cons]
          · simp [h0]

/-! ## Entries -/

/-- The texts of keys and values in the order of the visit. -/
def EntryTexts {α : Type} (kf vf : Nat → α → Bytes → Res) (n : Nat) (es : List α) (ts : List (Bytes × Bytes)) : Prop :=
  ts.length = es.length ∧ ∀ (j : Nat) e t, es[j]? = some e → ts[j]? = some t →
    kf (n + j) e [] = .ok t.1 ∧ vf (n + j) e [] = .ok t.2

theorem entryTexts_cons {α : Type} {kf vf : Nat → α → Bytes → Res} {n : Nat} {e : α} {es : List α} {ts : List (Bytes × Bytes)} :
    EntryTexts kf vf n (e :: es) ts ↔ ∃ k v ts', ts = (k, v) :: ts' ∧ kf n e [] = .ok k ∧ vf n e [] = .ok v ∧
      EntryTexts kf vf (n + 1) es ts' := by
  constructor
  · rintro ⟨h1, h2⟩
    cases ts with
    | nil => simp at h1
    | cons t ts =>
      obtain ⟨hk, hv⟩ := h2 0 e t rfl rfl
      refine ⟨t.1, t.2, ts, rfl, by simpa using hk, by simpa using hv, by simpa using h1, fun j e' t' he ht => ?_⟩
      have := h2 (j + 1) e' t' (by simpa using he) (by simpa using ht)
      rwa [show n + 1 + j = n + (j + 1) by omega]
  · rintro ⟨k, v, ts', rfl, hk, hv, h1, h2⟩
    refine ⟨by simp [h1], fun j e' t he ht => ?_⟩
    cases j with
    | zero => simp at he ht; subst he ht; exact ⟨by simpa using hk, by simpa using hv⟩
    | succ j =>
      have := h2 j e' t (by simpa using he) (by simpa using ht)
      rwa [show n + (j + 1) = n + 1 + j by omega]

/-- The text of an entry. -/
def entryText (t : Bytes × Bytes) : Bytes := t.1 ++ b! ":" ++ t.2

theorem unsorted_ok {α : Type} {kf vf : Nat → α → Bytes → Res} (hk : ∀ n a, Pre (kf n a)) (hv : ∀ n a, Pre (vf n a)) :
    ∀ (es : List α) (n : Nat) (dst out : Bytes), unsortedLoop kf vf n es dst = .ok out ↔
      ∃ ts, EntryTexts kf vf n es ts ∧
        out = dst ++ (if n = 0 then commas (ts.map entryText) else ((ts.map entryText).map (b! "," ++ ·)).flatten)
  | [], n, dst, out => by
    simp only [unsortedLoop]
    constructor
    · intro h
      refine ⟨[], ⟨rfl, by simp⟩, ?_⟩
      simp at h; subst h
      split <;> simp [commas]
    · rintro ⟨ts, ⟨h1, -⟩, rfl⟩
      simp at h1; subst h1
      split <;> simp [commas]
  | e :: es, n, dst, out => by
    have ih := unsorted_ok hk hv es (n + 1)
    simp only [unsortedLoop]
    rw [hk]
    constructor
    · intro h
      cases hx : kf n e [] with
      | ok k =>
        simp only [hx, Res.after] at h
        rw [hv] at h
        cases hy : vf n e [] with
        | ok v =>
          simp only [hy, Res.after] at h
          obtain ⟨ts, h1, h2⟩ := (ih _ _).mp h
          refine ⟨(k, v) :: ts, entryTexts_cons.mpr ⟨k, v, ts, rfl, hx, hy, h1⟩, ?_⟩
          rw [h2]
          by_cases h0 : n = 0
          · simp [h0, commas_cons, entryText]
          · simp [h0, entryText]
        | _ => simp [hy, Res.after] at h
      | _ => simp [hx, Res.after] at h
    · rintro ⟨ts, h, rfl⟩
      obtain ⟨k, v, ts, rfl, hx, hy, h1⟩ := entryTexts_cons.mp h
      simp only [hx, Res.after]
      rw [hv]
      simp only [hy, Res.after]
      refine (ih _ _).mpr ⟨ts, h1, ?_⟩
      by_cases h0 : n = 0
      · simp [h0, commas_cons, entryText]
      · simp [h0, entryText]

/-- The key without its first and last byte. -/
def innerKey (k : Bytes) : Bytes := slice k 1 (k.length - 1)

theorem sorted_ok {α : Type} {kf vf : Nat → α → Bytes → Res} (hk : ∀ n a, Pre (kf n a)) (hv : ∀ n a, Pre (vf n a)) :
    ∀ (es : List α) (n : Nat) (buf : Bytes) (mel : List (Bytes × Bytes)) (r : List (Bytes × Bytes)),
    sortedLoop kf vf n es buf mel = .ok r ↔
      ∃ ts, EntryTexts kf vf n es ts ∧ (∀ t ∈ ts, 2 ≤ t.1.length) ∧
        r = mel ++ ts.map fun t => (innerKey t.1, entryText t)
  | [], n, buf, mel, r => by
    simp only [sortedLoop]
    constructor
    · intro h
      exact ⟨[], ⟨rfl, by simp⟩, by simp, by simpa using h.symm⟩
    · rintro ⟨ts, ⟨h1, -⟩, -, rfl⟩
      simp at h1; subst h1
      simp
  | e :: es, n, buf, mel, r => by
    have ih := sorted_ok hk hv es (n + 1)
    simp only [sortedLoop]
    rw [hk]
    constructor
    · intro h
      cases hx : kf n e [] with
      | ok k =>
        simp only [hx, Res.after] at h
        split at h
        · simp at h
        · next hl =>
          rw [hv] at h
          cases hy : vf n e [] with
          | ok v =>
            simp only [hy, Res.after] at h
            split at h
            · simp at h
            · obtain ⟨ts, h1, h2, h3⟩ := (ih _ _ _).mp h
              have h2k : 2 ≤ k.length := by simp at hl; omega
              refine ⟨(k, v) :: ts, entryTexts_cons.mpr ⟨k, v, ts, rfl, hx, hy, h1⟩, ?_, ?_⟩
              · intro t ht
                simp at ht
                rcases ht with rfl | ht
                · exact h2k
                · exact h2 t ht
              · rw [h3]
                have e1 : slice (buf ++ k) (buf.length + 1) ((buf ++ k).length - 1) = innerKey k := by
                  simp only [slice, innerKey]
                  rw [List.take_append, List.drop_append, List.take_of_length_le (by simp; omega)]
                  rw [List.drop_of_length_le (by omega)]
                  simp only [List.nil_append, List.length_append]
                  congr 1
                  · omega
                  · congr 1; omega
                have e2 : (buf ++ k ++ b! ":" ++ v).drop buf.length = entryText (k, v) := by
                  simp [entryText]
                rw [e1, e2]; simp
          | _ => simp [hy, Res.after] at h
      | _ => simp [hx, Res.after] at h
    · rintro ⟨ts, h, h2, rfl⟩
      obtain ⟨k, v, ts, rfl, hx, hy, h1⟩ := entryTexts_cons.mp h
      have h2k : 2 ≤ k.length := h2 (k, v) (by simp)
      simp only [hx, Res.after]
      rw [if_neg (by simp; omega), hv]
      simp only [hy, Res.after]
      rw [if_neg (by simp)]
      refine (ih _ _ _).mpr ⟨ts, h1, fun t ht => h2 t (by simp [ht]), ?_⟩
      have e1 : slice (buf ++ k) (buf.length + 1) ((buf ++ k).length - 1) = innerKey k := by
        simp only [slice, innerKey]
        rw [List.take_append, List.drop_append, List.take_of_length_le (by simp; omega)]
        rw [List.drop_of_length_le (by omega)]
        simp only [List.nil_append, List.length_append]
        congr 1
        · omega
        · congr 1; omega
      have e2 : (buf ++ k ++ b! ":" ++ v).drop buf.length = entryText (k, v) := by
        simp [entryText]
      rw [e1, e2]; simp

theorem joinEntries_commas : ∀ (l : List (Bytes × Bytes)) (first : Bool) (dst : Bytes), joinEntries first l dst =
    dst ++ (if first then commas (l.map Prod.snd) else ((l.map Prod.snd).map (b! "," ++ ·)).flatten)
  | [], first, dst => by cases first <;> simp [joinEntries, commas]
  | kv :: l, first, dst => by
    simp only [joinEntries, joinEntries_commas l]
    cases first <;> simp [commas_cons]

/-- What the loop over the entries of a map or a `sync.Map` writes. -/
theorem entries_ok {α : Type} {W : World} {o : EncOpts} {kf vf : Nat → α → Bytes → Res} (hk : ∀ n a, Pre (kf n a))
    (hv : ∀ n a, Pre (vf n a)) (es : List α) (dst out : Bytes) : encodeEntries W o kf vf es dst = .ok out ↔
      ∃ ts, EntryTexts kf vf 0 es ts ∧
        ((bmHas o.flags .unsortedMap = true ∧ out = dst ++ (b! "{" ++ commas (ts.map entryText) ++ b! "}")) ∨
          (bmHas o.flags .unsortedMap = false ∧ (∀ t ∈ ts, 2 ≤ t.1.length) ∧
            out = dst ++ (b! "{" ++ commas ((W.sort kvLess (ts.map fun t => (innerKey t.1, entryText t))).map Prod.snd) ++ b! "}"))) := by
  simp only [encodeEntries]
  cases hf : bmHas o.flags .unsortedMap with
  | true =>
    simp only [if_true]
    constructor
    · intro h
      cases hx : unsortedLoop kf vf 0 es (dst ++ b! "{") with
      | ok d =>
        rw [hx] at h
        simp only [Res.ok.injEq] at h
        obtain ⟨ts, h1, h2⟩ := (unsorted_ok hk hv es 0 _ _).mp hx
        exact ⟨ts, h1, .inl ⟨trivial, by rw [← h, h2]; simp⟩⟩
      | _ => rw [hx] at h; simp at h
    · rintro ⟨ts, h1, ⟨-, rfl⟩ | ⟨h, -⟩⟩
      · have := (unsorted_ok hk hv es 0 (dst ++ b! "{") _).mpr ⟨ts, h1, rfl⟩
        rw [this]; simp
      · simp at h
  | false =>
    simp only [Bool.false_eq_true, if_false, encodeSorted]
    constructor
    · intro h
      cases hx : sortedLoop kf vf 0 es [] [] with
      | ok d =>
        rw [hx] at h
        simp only [Res.ok.injEq] at h
        obtain ⟨ts, h1, h2, h3⟩ := (sorted_ok hk hv es 0 _ _ _).mp hx
        refine ⟨ts, h1, .inr ⟨trivial, h2, ?_⟩⟩
        rw [← h, h3, joinEntries_commas]; simp
      | stop r =>
        rw [hx] at h
        cases r with
        | ok b => exact absurd hx sortedLoop_stop
        | _ => simp at h
    · rintro ⟨ts, h1, ⟨h, -⟩ | ⟨-, h2, rfl⟩⟩
      · simp at h
      · have := (sorted_ok hk hv es 0 [] [] _).mpr ⟨ts, h1, h2, rfl⟩
        rw [this]
        simp only [joinEntries_commas]
        simp

end Jettison.Proofs
