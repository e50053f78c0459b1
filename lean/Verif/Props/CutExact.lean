import Verif.Props.Cut
import Verif.Props.WritesExact

/-!
# What is returned beside an error (C66): the calls, and that it is determined
-/

namespace Jettison.Props
open Jettison Jettison.Spec Jettison.Model Jettison.Proofs

variable {W : World} {M : MethV} {o : EncOpts} {t : TId} {ca q : Bool} {v : Val} {e e' : Err} {c c' : Bytes}

/-- C66 for a value somewhere in the input: if it fails, what was there is kept, and what follows it is
what is described. -/
theorem C66_value {H : Heap} (D : WriteReady W H M) (hstd : StdText W.E) {i : Instr} {p : Loc} (S : Stands W H t ca q i p v) (hq : q = true → BasicOrPtr W.E t)
    (hf : TimesFine W t v) {n : Nat} {path : Path} {dst out : Bytes} (h : run W H o n path i p dst = .fail e out) :
    ∃ c, out = dst ++ c ∧ Cut W M o t ca q v e c := by
  obtain ⟨b, h1, rfl⟩ := pre_fails (pre_run (contract_long D.fmt) D.honest n path i p) h
  exact ⟨b, rfl, cut_upto D hstd n _ _ _ _ _ _ _ _ _ S hf hq h1⟩

/-- C66: what `AppendOpts` returns beside an error: what it was given, and what is described. -/
theorem C66_cut {H : Heap} (D : WriteReady W H M) (hstd : StdText W.E) {w : Addr} (hx : ReprE W.E H.mem (some (t, w)) (.iface t v)) (hf : TimesFine W t v)
    {opts : List (Option Opt)} (ho : prepare opts = .ok o) {n : Nat} {dst : Bytes} {r : Option Bytes}
    (h : appendOpts W H n dst (some (t, w)) opts = .ret r (some (.encoding e))) :
    ∃ c, r = some (dst ++ c) ∧ Cut W M o t (isPtrK (W.E t).kind) false v e c := by
  simp only [appendOpts, appendTop, ho] at h
  cases hr : appendJSON W (run W H o n) [] (some (t, w)) dst with
  | ok b => rw [hr] at h; cases h
  | panic => rw [hr] at h; cases h
  | nofuel => rw [hr] at h; cases h
  | bad => rw [hr] at h; cases h
  | fail e' b =>
    rw [hr] at h
    cases h
    rcases entry (o := o) D.ready hx n with ⟨-, h1⟩ | ⟨i, p, m, S, -, h1⟩
    · rw [h1] at hr; cases hr
    · rw [h1] at hr
      obtain ⟨c, rfl, h2⟩ := C66_value D hstd S (fun h => by cases h) hf hr
      exact ⟨c, rfl, h2⟩

/-! ## The error -/

theorem keyWrites_passes (G : GoTypes W.E W.ptrTo) (hP : PathFree M) {k : TId} {kb : Bytes} (ht : HasType W.E k v) (hf : TimesFine W k v)
    (h : KeyWrites W M o k v kb) (hl : bmHas o.flags .unsortedMap = false → 2 ≤ kb.length) : KeyPasses W M o k v := by
  intro hns
  have hti : ∀ x, v = .time x → -9223372036854775808 ≤ x.unix ∧ x.unix < 9223372036854775808 := by
    rintro x rfl
    exact (hf k x .refl).1
  cases h with
  | str h => exact absurd h hns
  | nilText _ h1 hpt =>
    refine ⟨fun h => absurd rfl (h h1 hpt), fun _ hsk => ?_⟩
    have nope : ∀ {m rt x u}, Picks W.E k false m → ¬ Receives W.E W.ptrTo k m .nil rt x u := by
      intro m rt x u hp hr
      rcases hp.1 with h' | ⟨h', -⟩
      · exact (receives_nil h' (.inl hpt) hr).elim
      · cases h'
    cases hsk with
    | append _ _ hp _ hr => exact nope hp hr
    | verbatim _ _ hp hr => exact nope hp hr
    | json _ _ hp hr => exact nope hp hr
  | text _ _ _ h => exact ⟨fun _ _ _ _ he => writes_clean G hP he ht hf h, fun hu hsk => absurd (short_writes hP hti hsk h) (Nat.not_lt.mpr (hl hu))⟩
  | quoted _ h1 h => exact ⟨fun _ _ _ _ he => writes_clean G hP he ht hf h, fun hu hsk => by rw [short_text hsk] at h1; cases h1⟩

theorem syncKeyWrites_passes (G : GoTypes W.E W.ptrTo) (hP : PathFree M) {x : Val} {kb : Bytes}
    (hp : ∀ d v, x = .iface d v → HasType W.E d v ∧ TimesFine W d v)
    (h : SyncKeyWrites W M o x kb) (hl : bmHas o.flags .unsortedMap = false → 2 ≤ kb.length) : SyncKeyPasses W M o x := by
  cases h with
  | str h1 => exact ⟨_, _, rfl, by simp [KeyType, h1], fun h => absurd h1 h⟩
  | text h1 h2 h3 =>
    obtain ⟨ht, hf⟩ := hp _ _ rfl
    refine ⟨_, _, rfl, by simp [KeyType, h2], fun _ => ⟨fun _ _ _ he => writes_clean G hP he ht hf h3, fun hu hsk => ?_⟩⟩
    refine absurd (short_writes hP ?_ hsk h3) (Nat.not_lt.mpr (hl hu))
    rintro x rfl
    exact (hf _ x .refl).1
  | quoted h1 h2 h3 =>
    obtain ⟨ht, hf⟩ := hp _ _ rfl
    refine ⟨_, _, rfl, by simp [KeyType, h1], fun _ => ⟨fun _ _ _ he => writes_clean G hP he ht hf h3, fun hu hsk => ?_⟩⟩
    rw [short_text hsk] at h2; cases h2

theorem first_entry (G : GoTypes W.E W.ptrTo) (ht : HasType W.E t v) (hf : TimesFine W t v) {t' : TId} {ca' : Bool} {v' : Val}
    (h : Encodes1 W o t ca v t' ca' v') : HasType W.E t' v' ∧ TimesFine W t' v' := by
  obtain ⟨a1, a2⟩ := encodes1_within G ht h
  exact ⟨a1, fun t'' x hw => hf t'' x (within_trans a2 hw)⟩

mutual
/-- A value that is cut is stopped by the error. -/
theorem cut_first (G : GoTypes W.E W.ptrTo) (hP : PathFree M) : ∀ {t : TId} {ca q : Bool} {v : Val} {e : Err} {c : Bytes},
    Cut W M o t ca q v e c → HasType W.E t v → TimesFine W t v → First W M o t ca v (some e)
  | _, _, _, _, _, _, .fault a _ b, _, _ => .fault a b
  | _, _, _, _, _, _, .quoted hb _ b, _, _ => .fault (by rw [hb.special]; simp) b
  | _, _, _, _, _, _, .ptr a b h, ht, hf =>
    have := first_entry (o := o) G ht hf (.ptr a b)
    .ptr a b (cut_first G hP h this.1 this.2)
  | _, _, _, _, _, _, .iface a b h, ht, hf =>
    have := first_entry (o := o) G ht hf (.iface a b)
    .iface a b (cut_first G hP h this.1 this.2)
  | _, _, _, _, _, _, .slice (v := v) a b d he hl hw h, ht, hf =>
    have all := fun x hx => first_entry (o := o) G ht hf (.slice a b d (v := x) hx)
    .slice a b d he (fun u hu t' ca' v' hE => by
      obtain ⟨i, y, hi, hj⟩ := at_index hl hu
      have := all u (by simp [he, hu])
      exact writes_clean G hP hE this.1 this.2 (hw i _ _ hi hj)) (cut_first G hP h (all v (by simp [he])).1 (all v (by simp [he])).2)
  | _, _, _, _, _, _, .array (v := v) a b d he hl hw h, ht, hf =>
    have hd := fun ⟨h1, h2⟩ => by rw [d h1] at h2; cases h2
    have all := fun x hx => first_entry (o := o) G ht hf (.array a b hd (v := x) hx)
    .array a b hd he (fun u hu t' ca' v' hE => by
      obtain ⟨i, y, hi, hj⟩ := at_index hl hu
      have := all u (by simp [he, hu])
      exact writes_clean G hP hE this.1 this.2 (hw i _ _ hi hj)) (cut_first G hP h (all v (by simp [he])).1 (all v (by simp [he])).2)
  | _, _, _, _, _, _, .field a1 a2 a3 a4 a5 a6 a7 a8 a9 a10 a11 a12 a13 a14 h, ht, hf =>
    have all := fun m' hm' hno x' hat => first_entry (o := o) G ht hf (.field (m := m') (x := x') a1 a2 ((a3.2 m').mp hm') hno hat)
    have me := all _ (by simp [a4]) a7 _ (a8 _ (.inr rfl))
    .field a1 a2 a3 a4 (fun m' hm' hno y hy t' ca' v' hE => by
      have hin := (a6 m' hm').mpr hno
      have := fieldAt_unique hy (a8 m' (.inl hin))
      subst this
      have := all m' (by simp [a4, hm']) hno _ hy
      exact writes_clean G hP hE this.1 this.2 (a10 m' hin)) a7 (a8 _ (.inr rfl)) (cut_first G hP h me.1 me.2)
  | _, _, _, _, _, _, .sorted a b d _ hm h, ht, hf => entryCut_first G hP h a b d hm ht hf
  | _, _, _, _, _, _, .unsorted a b d _ hm _ _ _ h, ht, hf => entryCut_first G hP h a b d (hm.mem_iff.mpr (by simp)) ht hf
  | _, _, _, _, _, _, .ssorted a _ hm h, ht, hf => syncEntryCut_first G hP h a hm ht hf
  | _, _, _, _, _, _, .sunsorted a _ hm _ _ _ _ h, ht, hf => syncEntryCut_first G hP h a (hm.mem_iff.mpr (by simp)) ht hf

theorem entryCut_first (G : GoTypes W.E W.ptrTo) (hP : PathFree M) : ∀ {k u : TId} {kv : Val × Val} {e : Err} {c : Bytes},
    EntryCut W M o k u kv e c → ∀ {t : TId} {ca : Bool} {kvs : List (Val × Val)}, ByKind W.E t ca → (W.E t).kind = .map k u → KeyType W.E k → kv ∈ kvs →
      HasType W.E t (.map kvs) → TimesFine W t (.map kvs) → First W M o t ca (.map kvs) (some e)
  | _, _, _, _, _, .text b1 b2 b3 h, _, _, _, hb, hk, hkt, hm, ht, hf =>
    have := first_entry (o := o) G ht hf (.key hb hk hkt b1 (fun _ => b3) hm)
    .key hb hk hkt b1 (fun _ => b3) hm (cut_first G hP h this.1 this.2)
  | _, _, _, _, _, .quoted b1 b2 h, _, _, _, hb, hk, hkt, hm, ht, hf =>
    have no := fun h => by rw [b2] at h; cases h
    have := first_entry (o := o) G ht hf (.key hb hk hkt b1 no hm)
    .key hb hk hkt b1 no hm (cut_first G hP h this.1 this.2)
  | _, _, _, _, _, .elem b1 b2 h, _, _, _, hb, hk, hkt, hm, ht, hf =>
    have := first_entry (o := o) G ht hf (.elem hb hk hkt hm)
    .elem hb hk hkt hm (keyWrites_passes G hP (part_type G ht (.key hk hm)) (timesFine_part hf (.key hk hm)) b1 b2) (cut_first G hP h this.1 this.2)

theorem syncEntryCut_first (G : GoTypes W.E W.ptrTo) (hP : PathFree M) : ∀ {kv : Val × Val} {e : Err} {c : Bytes},
    SyncEntryCut W M o kv e c → ∀ {t : TId} {ca : Bool} {kvs : List (Val × Val)}, (W.E t).special = some .syncMap → kv ∈ kvs →
      HasType W.E t (.smap kvs) → TimesFine W t (.smap kvs) → First W M o t ca (.smap kvs) (some e)
  | _, _, _, .nilKey b1, _, _, _, hs, hm, _, _ => .nilKey hs hm b1
  | _, _, _, .badKey b1 b2, _, _, _, hs, hm, _, _ => .badKey hs hm b1 b2
  | _, _, _, .text b1 b2 b3 h, _, _, _, hs, hm, ht, hf =>
    have hkt := by simp [KeyType, b3]
    have := first_entry (o := o) (ca := false) G ht hf (.skey hs hm b1 hkt b2)
    .skey hs hm b1 hkt b2 (cut_first G hP h this.1 this.2)
  | _, _, _, .quoted b1 b2 b3 h, _, _, _, hs, hm, ht, hf =>
    have hkt := by simp [KeyType, b2]
    have := first_entry (o := o) (ca := false) G ht hf (.skey hs hm b1 hkt (by simp [b2]))
    .skey hs hm b1 hkt (by simp [b2]) (cut_first G hP h this.1 this.2)
  | _, _, _, .elem b1 b2 b3 h, _, _, _, hs, hm, ht, hf =>
    have := first_entry (o := o) (ca := false) G ht hf (.selem hs hm b3)
    .selem hs hm (syncKeyWrites_passes G hP (fun d v e => ⟨part_type G ht (.skey hm e), timesFine_part hf (.skey hm e)⟩) b1 b2) b3 (cut_first G hP h this.1 this.2)
end

/-! ## What is written -/

theorem split_same {α : Type} {P : α → Prop} : ∀ {pre pre' : List α} {x x' : α} {post post' : List α}, pre ++ x :: post = pre' ++ x' :: post' →
    (∀ u ∈ pre, P u) → (∀ u ∈ pre', P u) → ¬ P x → ¬ P x' → pre = pre' ∧ x = x'
  | [], [], _, _, _, _, h, _, _, _, _ => by cases h; exact ⟨rfl, rfl⟩
  | [], y :: ys, _, _, _, _, h, _, h2, h3, _ => by cases h; exact absurd (h2 _ (by simp)) h3
  | y :: ys, [], _, _, _, _, h, h1, _, _, h4 => by cases h; exact absurd (h1 _ (by simp)) h4
  | y :: ys, z :: zs, _, _, _, _, h, h1, h2, h3, h4 => by
    simp only [List.cons_append, List.cons.injEq] at h
    obtain ⟨rfl, hx⟩ := split_same h.2 (fun u hu => h1 u (by simp [hu])) (fun u hu => h2 u (by simp [hu])) h3 h4
    exact ⟨by rw [h.1], hx⟩

/-- The elements before the one that fails have one text each, and the one that fails is one and the same. -/
theorem elems_same (G : GoTypes W.E W.ptrTo) (hP : PathFree M) (hu : bmHas o.flags .unsortedMap = false) {u : TId} {pre pre' post post' : List Val} {x x' : Val}
    {bs bs' : List Bytes} (h : pre ++ x :: post = pre' ++ x' :: post')
    (all : ∀ y ∈ pre ++ x :: post, HasType W.E u y ∧ TimesFine W u y ∧ KeysTold W M o u y)
    (h1 : bs.length = pre.length) (h2 : ∀ (i : Nat) x b, pre[i]? = some x → bs[i]? = some b → Writes W M o u ca false x b)
    (h1' : bs'.length = pre'.length) (h2' : ∀ (i : Nat) x b, pre'[i]? = some x → bs'[i]? = some b → Writes W M o u ca false x b)
    (hc : Cut W M o u ca false x e c) (hc' : Cut W M o u ca false x' e' c') : bs = bs' ∧ x = x' := by
  have good : ∀ y ∈ pre, Blameless W M o u ca y := by
    intro y hy t' ca' v' hE
    obtain ⟨i, b, hi, hj⟩ := at_index h1 hy
    obtain ⟨a1, a2, -⟩ := all y (by simp [hy])
    exact writes_clean G hP hE a1 a2 (h2 i _ _ hi hj)
  have good' : ∀ y ∈ pre', Blameless W M o u ca y := by
    intro y hy t' ca' v' hE
    obtain ⟨i, b, hi, hj⟩ := at_index h1' hy
    obtain ⟨a1, a2, -⟩ := all y (by rw [h]; simp [hy])
    exact writes_clean G hP hE a1 a2 (h2' i _ _ hi hj)
  have bad : ¬ Blameless W M o u ca x := first_blame (cut_first G hP hc (all x (by simp)).1 (all x (by simp)).2.1)
  have bad' : ¬ Blameless W M o u ca x' := first_blame (cut_first G hP hc' (all x' (by rw [h]; simp)).1 (all x' (by rw [h]; simp)).2.1)
  obtain ⟨rfl, rfl⟩ := split_same h good good' bad bad'
  refine ⟨texts_unique h1 h1' h2 h2' fun y hy b b' hb hb' => ?_, rfl⟩
  obtain ⟨a1, -, a3⟩ := all y (by simp [hy])
  exact C56_unique G hP hu a1 a3 hb hb'

theorem c_ptr {u : TId} {x : Val} (hb : ByKind W.E t ca) (hk : (W.E t).kind = .ptr u) (h : Cut W M o t ca q (.ptr x) e c) : Cut W M o u true q x e c := by
  have hs := hb.special
  cases h with
  | fault _ _ h => exact absurd h (fault_kind hb (by simp [hk]) (by simp [hk]) (by simp [hk]))
  | quoted _ h => rw [hk] at h; cases h
  | ptr _ h1 h2 => rw [hk] at h1; cases h1; exact h2
  | field _ h1 => obtain ⟨fs, h1⟩ := h1; replace h1 : (W.E t).kind = .struct fs := h1; rw [hk] at h1; cases h1

theorem c_iface {k d : TId} {x : Val} (hb : ByKind W.E t ca) (hk : (W.E t).kind = .iface k) (h : Cut W M o t ca false (.iface d x) e c) :
    Cut W M o d (isPtrK (W.E d).kind) false x e c := by
  have hs := hb.special
  cases h with
  | fault _ _ h => exact absurd h (fault_kind hb (by simp [hk]) (by simp [hk]) (by simp [hk]))
  | iface _ _ h2 => exact h2
  | field _ h1 => obtain ⟨fs, h1⟩ := h1; replace h1 : (W.E t).kind = .struct fs := h1; rw [hk] at h1; cases h1

theorem c_slice {u : TId} {vs : List Val} (hb : ByKind W.E t ca) (hk : (W.E t).kind = .slice u) (h : Cut W M o t ca false (.slice vs) e c) :
    ∃ pre v post bs c', vs = pre ++ v :: post ∧ bs.length = pre.length ∧
      (∀ (i : Nat) x b, pre[i]? = some x → bs[i]? = some b → Writes W M o u true false x b) ∧ Cut W M o u true false v e c' ∧ c = b! "[" ++ commas (bs ++ [c']) := by
  cases h with
  | fault _ _ h => exact absurd h (fault_kind hb (by simp [hk]) (by simp [hk]) (by simp [hk]))
  | slice _ h1 _ h2 h3 h4 h5 => rw [hk] at h1; cases h1; exact ⟨_, _, _, _, _, h2, h3, h4, h5, rfl⟩
  | field _ h1 => obtain ⟨fs, h1⟩ := h1; replace h1 : (W.E t).kind = .struct fs := h1; rw [hk] at h1; cases h1

theorem c_array {n : Nat} {u : TId} {vs : List Val} (hb : ByKind W.E t ca) (hk : (W.E t).kind = .array n u) (h : Cut W M o t ca false (.array vs) e c) :
    ∃ pre v post bs c', vs = pre ++ v :: post ∧ bs.length = pre.length ∧
      (∀ (i : Nat) x b, pre[i]? = some x → bs[i]? = some b → Writes W M o u ca false x b) ∧ Cut W M o u ca false v e c' ∧ c = b! "[" ++ commas (bs ++ [c']) := by
  cases h with
  | fault _ _ h => exact absurd h (fault_kind hb (by simp [hk]) (by simp [hk]) (by simp [hk]))
  | array _ h1 _ h2 h3 h4 h5 => rw [hk] at h1; cases h1; exact ⟨_, _, _, _, _, h2, h3, h4, h5, rfl⟩
  | field _ h1 => obtain ⟨fs, h1⟩ := h1; replace h1 : (W.E t).kind = .struct fs := h1; rw [hk] at h1; cases h1

theorem c_map {k u : TId} {kvs : List (Val × Val)} (hb : ByKind W.E t ca) (hk : (W.E t).kind = .map k u) (hkt : KeyType W.E k) (hu : bmHas o.flags .unsortedMap = false)
    (h : Cut W M o t ca false (.map kvs) e c) : c = b! "{" := by
  cases h with
  | fault _ _ h => exact absurd h (fault_kind hb (by simp [hk]) (by simp [hk]) (by intro k' e' h; rw [hk] at h; cases h; exact hkt))
  | sorted => rfl
  | unsorted _ _ _ h => rw [hu] at h; cases h
  | field _ h1 => obtain ⟨fs, h1⟩ := h1; replace h1 : (W.E t).kind = .struct fs := h1; rw [hk] at h1; cases h1

theorem c_smap {kvs : List (Val × Val)} (hs : (W.E t).special = some .syncMap) (hu : bmHas o.flags .unsortedMap = false)
    (h : Cut W M o t ca q (.smap kvs) e c) : c = b! "{" := by
  cases h with
  | fault h => exact absurd hs h
  | quoted hb => rw [hb.special] at hs; cases hs
  | ssorted => rfl
  | sunsorted _ h => rw [hu] at h; cases h
  | field hb => rw [hb.special] at hs; cases hs

/-- Of a value that fails itself nothing is written. -/
theorem c_fault (h1 : (W.E t).special ≠ some .syncMap) (h2 : q = true → ¬ ByKind W.E t ca) (h : Fault W M o t ca v e) (h' : Cut W M o t ca q v e' c) : c = [] := by
  have no : ByKind W.E t ca → (∀ w, (W.E t).kind ≠ .float w) → (W.E t).kind ≠ .other → (∀ k e, (W.E t).kind = .map k e → KeyType W.E k) → False :=
    fun hb a1 a2 a3 => fault_kind hb a1 a2 a3 h
  cases h' with
  | fault => rfl
  | quoted hb => exact absurd hb (h2 rfl)
  | ptr hb hk => exact (no hb (by simp [hk]) (by simp [hk]) (by simp [hk])).elim
  | iface hb hk => exact (no hb (by simp [hk]) (by simp [hk]) (by simp [hk])).elim
  | slice hb hk => exact (no hb (by simp [hk]) (by simp [hk]) (by simp [hk])).elim
  | array hb hk => exact (no hb (by simp [hk]) (by simp [hk]) (by simp [hk])).elim
  | field hb hk =>
    obtain ⟨fs, hk⟩ := hk
    replace hk : (W.E t).kind = .struct fs := hk
    exact (no hb (by simp [hk]) (by simp [hk]) (by simp [hk])).elim
  | sorted hb hk hkt => exact (no hb (by simp [hk]) (by simp [hk]) (by intro k' e' h; rw [hk] at h; cases h; exact hkt)).elim
  | unsorted hb hk hkt => exact (no hb (by simp [hk]) (by simp [hk]) (by intro k' e' h; rw [hk] at h; cases h; exact hkt)).elim
  | ssorted hs => exact absurd hs h1
  | sunsorted hs => exact absurd hs h1

theorem c_quoted (h1 : ByKind W.E t ca) (h2 : isBasicK (W.E t).kind = true) (h' : Cut W M o t ca true v e' c) : c = b! "\"" := by
  cases h' with
  | fault _ h => exact absurd h1 (h rfl)
  | quoted => rfl
  | ptr hb hk => rw [hk] at h2; cases h2
  | ssorted h => rw [h1.special] at h; cases h
  | sunsorted h => rw [h1.special] at h; cases h

/-- What is needed of a value holds of its parts. -/
theorem told_part (G : GoTypes W.E W.ptrTo) (ht : HasType W.E t v) (hf : TimesFine W t v) (hd : KeysTold W M o t v) {t' : TId} {ca' : Bool} {v' : Val}
    (h : Encodes1 W o t ca v t' ca' v') : HasType W.E t' v' ∧ TimesFine W t' v' ∧ KeysTold W M o t' v' := by
  obtain ⟨a1, a2⟩ := encodes1_within G ht h
  exact ⟨a1, fun t'' x hw => hf t'' x (within_trans a2 hw), hd.part a2⟩

theorem cut_same (G : GoTypes W.E W.ptrTo) (hP : PathFree M) (hu : bmHas o.flags .unsortedMap = false) : ∀ (n : Nat) {t : TId} {ca q : Bool} {v : Val} {e e' : Err} {c c' : Bytes},
    sizeOf v = n → HasType W.E t v → TimesFine W t v → KeysTold W M o t v → Cut W M o t ca q v e c → Cut W M o t ca q v e' c' → c = c' := by
  intro n
  induction n using Nat.strongRecOn with
  | ind n ih =>
  intro t ca q v e e' c c' hn ht hf hd h h'
  subst hn
  have part : ∀ {t' : TId} {ca' q' : Bool} {v' : Val} {e e' : Err} {c c' : Bytes}, HasType W.E t' v' ∧ TimesFine W t' v' ∧ KeysTold W M o t' v' → sizeOf v' < sizeOf v →
      Cut W M o t' ca' q' v' e c → Cut W M o t' ca' q' v' e' c' → c = c' := fun hp hs h h' => ih _ hs rfl hp.1 hp.2.1 hp.2.2 h h'
  cases h with
  | fault a1 a2 a3 => exact (c_fault a1 a2 a3 h').symm
  | quoted a1 a2 a3 => exact (c_quoted a1 a2 h').symm
  | ptr a1 a2 h => exact part (told_part G ht hf hd (.ptr a1 a2)) (by simp) h (c_ptr a1 a2 h')
  | iface a1 a2 h => exact part (told_part G ht hf hd (.iface a1 a2)) (by simp only [Val.iface.sizeOf_spec]; omega) h (c_iface a1 a2 h')
  | @slice _ _ _ vs pre x post bs _ c1 a1 a2 a3 he b1 b2 h =>
    obtain ⟨pre', x', post', bs', c2, he', b1', b2', h2, rfl⟩ := c_slice a1 a2 h'
    have all : ∀ y ∈ vs, _ := fun y hy => told_part G ht hf hd (.slice a1 a2 a3 (v := y) hy)
    rw [he] at all he'
    obtain ⟨rfl, rfl⟩ := elems_same G hP hu he' all b1 b2 b1' b2' h h2
    rw [part (all x (by simp)) (by
      have := List.sizeOf_lt_of_mem (a := x) (as := vs) (by simp [he])
      simp only [Val.slice.sizeOf_spec]
      omega) h h2]
  | @array _ _ _ _ vs pre x post bs _ c1 a1 a2 a3 he b1 b2 h =>
    obtain ⟨pre', x', post', bs', c2, he', b1', b2', h2, rfl⟩ := c_array a1 a2 h'
    have all : ∀ y ∈ vs, _ := fun y hy => told_part G ht hf hd (.array a1 a2 (fun ⟨h1, h2⟩ => by rw [a3 h1] at h2; cases h2) (v := y) hy)
    rw [he] at all he'
    obtain ⟨rfl, rfl⟩ := elems_same G hP hu he' all b1 b2 b1' b2' h h2
    rw [part (all x (by simp)) (by
      have := List.sizeOf_lt_of_mem (a := x) (as := vs) (by simp [he])
      simp only [Val.array.sizeOf_spec]
      omega) h h2]
  | sorted a1 a2 a3 => exact (c_map a1 a2 a3 hu h').symm
  | unsorted _ _ _ a => rw [hu] at a; cases a
  | ssorted a => exact (c_smap a hu h').symm
  | sunsorted _ a => rw [hu] at a; cases a
  | @field _ _ _ l pre post tried kept m q1 x b key lead _ c1 hb hst a1 a2 a3 a4 a5 a6 a7 a8 a9 a10 a11 a12 h =>
    have hk0 := hst
    obtain ⟨fs, hk⟩ := hk0
    replace hk : (W.E t).kind = .struct fs := hk
    cases h' with
    | fault _ _ h => exact absurd h (fault_kind hb (by simp [hk]) (by simp [hk]) (by simp [hk]))
    | ptr _ h1 => rw [hk] at h1; cases h1
    | iface _ h1 => rw [hk] at h1; cases h1
    | slice _ h1 => rw [hk] at h1; cases h1
    | array _ h1 => rw [hk] at h1; cases h1
    | sorted _ h1 => rw [hk] at h1; cases h1
    | unsorted _ h1 => rw [hk] at h1; cases h1
    | ssorted h1 => rw [hb.special] at h1; cases h1
    | sunsorted h1 => rw [hb.special] at h1; cases h1
    | @field _ _ _ l2 pre2 post2 tried2 kept2 m2 q2 x2 b2 key2 lead2 _ c2 _ _ b1 b2' b3 b4 b5 b6 b7 b8 b9 b10 b11 b12 h' =>
    cases membersOf_unique a1 b1
    have all : ∀ m' ∈ l, ¬ LeftOut o v m' → ∀ y, FieldAt v m'.path y → _ := fun m' hm' hno y hat =>
      told_part (M := M) G ht hf hd (.field (m := m') (x := y) hb hst ((a1.2 m').mp hm') hno hat)
    have blame : ∀ m' ∈ l, ¬ LeftOut o v m' → ∀ {q b}, ∀ y, FieldAt v m'.path y → Writes W M o m'.decl.typ ca q y b → Blameless W M o m'.decl.typ ca y :=
      fun m' hm' hno q b y hat hw t' ca' v' hE => writes_clean G hP hE (all m' hm' hno y hat).1 (all m' hm' hno y hat).2.1 hw
    have in1 : ∀ m' ∈ pre, m' ∈ l := fun m' h => by simp [a2, h]
    have in2 : ∀ m' ∈ pre2, m' ∈ l := fun m' h => by simp [b2', h]
    have im1 : m ∈ l := by simp [a2]
    have im2 : m2 ∈ l := by simp [b2']
    have me1 := all m im1 a5 _ (a6 m (.inr rfl))
    have me2 := all m2 im2 b5 _ (b6 m2 (.inr rfl))
    obtain ⟨rfl, rfl⟩ := split_same (P := fun m' => ¬ LeftOut o v m' → ∀ y, FieldAt v m'.path y → Blameless W M o m'.decl.typ ca y) (a2.symm.trans b2')
      (fun m' hm' hno y hy => by
        have hin := (a4 m' hm').mpr hno
        have := fieldAt_unique hy (a6 m' (.inl hin))
        subst this
        exact blame m' (in1 m' hm') hno _ hy (a8 m' hin))
      (fun m' hm' hno y hy => by
        have hin := (b4 m' hm').mpr hno
        have := fieldAt_unique hy (b6 m' (.inl hin))
        subst this
        exact blame m' (in2 m' hm') hno _ hy (b8 m' hin))
      (fun hP' => first_blame (cut_first G hP h me1.1 me1.2.1) (hP' a5 _ (a6 m (.inr rfl))))
      (fun hP' => first_blame (cut_first G hP h' me2.1 me2.2.1) (hP' b5 _ (b6 m2 (.inr rfl))))
    have hnd : pre.Nodup := (membersOf_nodup a1).sublist (by rw [a2]; simp)
    cases sublist_unique hnd a3 b3 fun m hm => (a4 m hm).trans (b4 m hm).symm
    have hx : ∀ m', m' ∈ tried ∨ m' = m → x m' = x2 m' ∧ q1 m' = q2 m' := fun m' hm' =>
      ⟨fieldAt_unique (a6 m' hm') (b6 m' hm'), Bool.eq_iff_iff.mpr ((a7 m' hm').trans (b7 m' hm').symm)⟩
    have hc : ∀ m' ∈ tried, b m' = b2 m' := by
      intro m' hm'
      obtain ⟨e1, e2⟩ := hx m' (.inl hm')
      have w2 := b8 m' hm'
      rw [← e1, ← e2] at w2
      have hin := a3.subset hm'
      have hw := all m' (in1 m' hin) ((a4 m' hin).mp hm') _ (a6 m' (.inl hm'))
      exact C56_unique G hP hu hw.1 hw.2.2 (a8 m' hm') w2
    cases sublist_unique (hnd.sublist a3) a9 b9 fun m hm => by rw [a10 m hm, b10 m hm, hc m hm]
    rw [lead_unique a12 b12]
    have : kept.map (fun m => b! "\"" ++ key m ++ b! "\":" ++ b m) = kept.map (fun m => b! "\"" ++ key2 m ++ b! "\":" ++ b2 m) :=
      List.map_congr_left fun m hm => by rw [namedAs_unique (a11 m (.inl hm)) (b11 m (.inl hm)), hc m (a9.subset hm)]
    rw [this, namedAs_unique (a11 m (.inr rfl)) (b11 m (.inr rfl))]
    obtain ⟨e1, e2⟩ := hx m (.inr rfl)
    rw [← e1, ← e2] at h'
    rw [part me1 (fieldAt_size (a6 m (.inr rfl))) h h']

/-- C66: the description leaves no choice. Of a value that fails at most one beginning is allowed,
whichever of its parts fails, if maps are sorted and the texts of the keys of a map differ. -/
theorem C66_unique (G : GoTypes W.E W.ptrTo) (hP : PathFree M) (hu : bmHas o.flags .unsortedMap = false) (ht : HasType W.E t v) (hf : TimesFine W t v)
    (hd : KeysTold W M o t v) (h : Cut W M o t ca q v e c) (h' : Cut W M o t ca q v e' c') : c = c' :=
  cut_same G hP hu _ rfl ht hf hd h h'

/-- C66: what is described is what happens. If a value is cut, a call that ends fails, and if only one
entry of a map is at fault and maps are sorted, with this error and after writing this. -/
theorem C66_exact {H : Heap} (D : WriteReady W H M) (hstd : StdText W.E) (hP : PathFree M) {w : Addr} (hx : ReprE W.E H.mem (some (t, w)) (.iface t v))
    (hf : TimesFine W t v) {opts : List (Option Opt)} (ho : prepare opts = .ok o) (hu : bmHas o.flags .unsortedMap = false) (hd : KeysTold W M o t v)
    (hone : OneEntry W M o t (isPtrK (W.E t).kind) v) (n : Nat) (dst : Bytes) (hn : marshalOpts W H n (some (t, w)) opts ≠ .nofuel)
    (h : Cut W M o t (isPtrK (W.E t).kind) false v e c) :
    marshalOpts W H n (some (t, w)) opts = .ret none (some (.encoding e)) ∧
    appendOpts W H n dst (some (t, w)) opts = .ret (some (dst ++ c)) (some (.encoding e)) := by
  have ht : HasType W.E t v := by
    cases repr_inIface hx with
    | val h => exact h
  obtain ⟨h1, b, h2⟩ := (C58_exact (faultReady_of D hstd) hP hx ho n dst hn hone).1 e (cut_first D.ready.types hP h ht hf)
  refine ⟨h1, ?_⟩
  obtain ⟨c', h3, h4⟩ := C66_cut D hstd hx hf ho h2
  cases C66_unique D.ready.types hP hu ht hf hd h h4
  rw [h2, h3]

/-- C66 on finite types and data, where the call ends (C33): it fails with an error after writing some
bytes if and only if they are described. -/
theorem C66_iff {g n : Nat} {S : List TId} {k : Call} (hc : FiniteCall W g n k S M) (D : WriteReady (k.world W) k.heap M) (hstd : StdText W.E) (hP : PathFree M)
    {w : Addr} (hv : k.value = some (t, w)) (hx : ReprE W.E k.heap.mem (some (t, w)) (.iface t v)) {opts : List (Option Opt)} (ho : prepare opts = .ok o)
    (hf : TimesFine (k.world W) t v) (hu : bmHas o.flags .unsortedMap = false) (hd : KeysTold (k.world W) M o t v)
    (hone : OneEntry (k.world W) M o t (isPtrK (W.E t).kind) v) (dst : Bytes) :
    appendOpts (k.world W) k.heap n dst (some (t, w)) opts = .ret (some (dst ++ c)) (some (.encoding e)) ↔
      Cut (k.world W) M o t (isPtrK (W.E t).kind) false v e c := by
  refine ⟨fun h => ?_, fun h => (C66_exact D hstd hP hx hf ho hu hd hone n dst ?_ h).2⟩
  · obtain ⟨c', h1, h2⟩ := C66_cut D hstd hx hf ho h
    rw [List.append_cancel_left (Option.some.inj h1)]
    exact h2
  · simp only [marshalOpts, ho, marshalJSON]
    have := appendJSON_ends hc hv o [] []
    generalize appendJSON (k.world W) (run (k.world W) k.heap o n) [] (some (t, w)) [] = r at this
    cases r with
    | nofuel => exact absurd rfl this
    | _ => simp [marshalRet]

end Jettison.Props
