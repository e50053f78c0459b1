import Verif.Proofs.First
import Verif.Props.WritesUnique
import Verif.Props.Faults
import Verif.Props.MapsEx

/-!
# Which of several faults is reported (C58)

`First` (Spec/First) says what stops the encoding of a value: of several parts at fault the first.
-/

namespace Jettison.Props
open Jettison Jettison.Spec Jettison.Model Jettison.Proofs

variable {W : World} {H : Heap} {M : MethV} {o : EncOpts} {t : TId} {ca : Bool} {v : Val} {r r' : Option Err}

theorem blameless_part {t' : TId} {ca' : Bool} {v' : Val} (h : Blameless W M o t ca v) (h1 : Encodes1 W o t ca v t' ca' v') : Blameless W M o t' ca' v' :=
  fun _ _ _ he => h _ _ _ (.step h1 he)

/-- What stops is at fault. -/
theorem first_blame (h : First W M o t ca v r) : ¬ Blameless W M o t ca v := by
  induction h with
  | fault _ h => exact fun hb => (hb _ _ _ .refl).1 _ h
  | method a1 a2 a3 a4 => exact fun hb => (hb _ _ _ .refl).2 (.method a1 a2 a3 a4)
  | ptr a1 a2 _ ih => exact fun hb => ih (blameless_part hb (.ptr a1 a2))
  | iface a1 a2 _ ih => exact fun hb => ih (blameless_part hb (.iface a1 a2))
  | slice a1 a2 a3 a4 _ _ ih => exact fun hb => ih (blameless_part hb (.slice a1 a2 a3 (by simp [a4])))
  | array a1 a2 a3 a4 _ _ ih => exact fun hb => ih (blameless_part hb (.array a1 a2 a3 (by simp [a4])))
  | field a1 a2 a3 a4 _ a5 a6 _ ih => exact fun hb => ih (blameless_part hb (.field a1 a2 ((a3.2 _).mp (by simp [a4])) a5 a6))
  | key a1 a2 a3 a4 a5 a6 _ ih => exact fun hb => ih (blameless_part hb (.key a1 a2 a3 a4 a5 a6))
  | short a1 a2 a3 a4 a5 _ a6 => exact fun hb => (hb _ _ _ .refl).2 (.key a1 a2 a3 a4 a5 a6)
  | elem a1 a2 a3 a4 _ _ ih => exact fun hb => ih (blameless_part hb (.elem a1 a2 a3 a4))
  | nilKey a1 a2 a3 => exact fun hb => (hb _ _ _ .refl).1 _ (.nilKey a1 a2 a3)
  | badKey a1 a2 a3 a4 => exact fun hb => (hb _ _ _ .refl).1 _ (.badKey a1 a2 a3 a4)
  | skey a1 a2 a3 a4 a5 _ ih => exact fun hb => ih (blameless_part hb (.skey a1 a2 a3 a4 a5))
  | sshort a1 a2 a3 a4 a5 _ a6 => exact fun hb => (hb _ _ _ .refl).2 (.skey a1 a2 a3 a4 a5 a6)
  | nilElem a1 a2 _ a3 => exact fun hb => (hb _ _ _ .refl).2 (.nilElem a1 a2 a3)
  | selem a1 a2 _ a3 _ ih => exact fun hb => ih (blameless_part hb (.selem a1 a2 a3))

/-! ## Only one entry at fault -/

/-- Neither the key nor the value of the entry of a map is at fault. -/
def EntryPasses (W : World) (M : MethV) (o : EncOpts) (k e : TId) (kv : Val × Val) : Prop :=
  KeyPasses W M o k kv.1 ∧ Blameless W M o e false kv.2

/-- Neither the key nor the value of the entry of a `sync.Map` is at fault. -/
def SyncEntryPasses (W : World) (M : MethV) (o : EncOpts) (kv : Val × Val) : Prop :=
  SyncKeyPasses W M o kv.1 ∧ ∃ d v, kv.2 = .iface d v ∧ Blameless W M o d (isPtrK (W.E d).kind) v

/-- In each map that is encoded at most one entry is at fault. -/
structure OneEntry (W : World) (M : MethV) (o : EncOpts) (t : TId) (ca : Bool) (v : Val) : Prop where
  map : ∀ t' ca' kvs k e, Encodes W o t ca v t' ca' (.map kvs) → (W.E t').kind = .map k e →
    ∀ a ∈ kvs, ∀ b ∈ kvs, ¬ EntryPasses W M o k e a → ¬ EntryPasses W M o k e b → a = b
  smap : ∀ t' ca' kvs, Encodes W o t ca v t' ca' (.smap kvs) →
    ∀ a ∈ kvs, ∀ b ∈ kvs, ¬ SyncEntryPasses W M o a → ¬ SyncEntryPasses W M o b → a = b

theorem OneEntry.part {t' : TId} {ca' : Bool} {v' : Val} (h : OneEntry W M o t ca v) (h1 : Encodes1 W o t ca v t' ca' v') : OneEntry W M o t' ca' v' :=
  ⟨fun _ _ _ _ _ he => h.map _ _ _ _ _ (.step h1 he), fun _ _ _ he => h.smap _ _ _ (.step h1 he)⟩

/-! ## The rules for a kind -/

theorem split_unique {α : Type} {P : α → Prop} : ∀ {pre pre' : List α} {x x' : α} {post post' : List α}, pre ++ x :: post = pre' ++ x' :: post' →
    (∀ u ∈ pre, P u) → (∀ u ∈ pre', P u) → ¬ P x → ¬ P x' → x = x'
  | [], [], _, _, _, _, h, _, _, _, _ => by cases h; rfl
  | [], y :: ys, _, _, _, _, h, _, h2, h3, _ => by cases h; exact absurd (h2 _ (by simp)) h3
  | y :: ys, [], _, _, _, _, h, h1, _, _, h4 => by cases h; exact absurd (h1 _ (by simp)) h4
  | y :: ys, z :: zs, _, _, _, _, h, h1, h2, h3, h4 => by
    simp only [List.cons_append, List.cons.injEq] at h
    exact split_unique h.2 (fun u hu => h1 u (by simp [hu])) (fun u hu => h2 u (by simp [hu])) h3 h4

theorem fault_kind {e : Err} (hb : ByKind W.E t ca) (h1 : ∀ w, (W.E t).kind ≠ .float w) (h2 : (W.E t).kind ≠ .other)
    (h3 : ∀ k e, (W.E t).kind = .map k e → KeyType W.E k) : ¬ Fault W M o t ca v e := by
  intro h
  rcases fault_byKind hb h with ⟨w, b, h, -⟩ | h | ⟨k, e, h, h'⟩
  · exact h1 _ h
  · exact h2 h
  · exact h' (h3 _ _ h)

theorem f_ptr (hb : ByKind W.E t ca) {e : TId} (hk : (W.E t).kind = .ptr e) (h : First W M o t ca (.ptr v) r) : First W M o e true v r := by
  have hs := hb.special
  cases h with
  | fault _ h => exact absurd h (fault_kind hb (by simp [hk]) (by simp [hk]) (by simp [hk]))
  | method _ hp => exact absurd hb (picks_byKind hp)
  | ptr _ hk' h => rw [hk] at hk'; cases hk'; exact h
  | field _ hst => exact absurd hst (struct_not hk (by simp))

theorem f_iface (hb : ByKind W.E t ca) {n : Nat} (hk : (W.E t).kind = .iface n) {d : TId} (h : First W M o t ca (.iface d v) r) :
    First W M o d (isPtrK (W.E d).kind) v r := by
  have hs := hb.special
  cases h with
  | fault _ h => exact absurd h (fault_kind hb (by simp [hk]) (by simp [hk]) (by simp [hk]))
  | method _ hp => exact absurd hb (picks_byKind hp)
  | iface _ hk' h => exact h
  | field _ hst => exact absurd hst (struct_not hk (by simp))

theorem f_slice (hb : ByKind W.E t ca) {e : TId} (hk : (W.E t).kind = .slice e) {vs : List Val} (h : First W M o t ca (.slice vs) r) :
    ∃ pre v post, vs = pre ++ v :: post ∧ (∀ u ∈ pre, Blameless W M o e true u) ∧ First W M o e true v r := by
  have hs := hb.special
  cases h with
  | fault _ h => exact absurd h (fault_kind hb (by simp [hk]) (by simp [hk]) (by simp [hk]))
  | method _ hp => exact absurd hb (picks_byKind hp)
  | slice _ hk' _ h1 h2 h3 => rw [hk] at hk'; cases hk'; exact ⟨_, _, _, h1, h2, h3⟩
  | field _ hst => exact absurd hst (struct_not hk (by simp))

theorem f_array (hb : ByKind W.E t ca) {n : Nat} {e : TId} (hk : (W.E t).kind = .array n e) {vs : List Val} (h : First W M o t ca (.array vs) r) :
    ∃ pre v post, vs = pre ++ v :: post ∧ (∀ u ∈ pre, Blameless W M o e ca u) ∧ First W M o e ca v r := by
  have hs := hb.special
  cases h with
  | fault _ h => exact absurd h (fault_kind hb (by simp [hk]) (by simp [hk]) (by simp [hk]))
  | method _ hp => exact absurd hb (picks_byKind hp)
  | array _ hk' _ h1 h2 h3 => rw [hk] at hk'; cases hk'; exact ⟨_, _, _, h1, h2, h3⟩
  | field _ hst => exact absurd hst (struct_not hk (by simp))

theorem f_struct (hb : ByKind W.E t ca) (hst : IsStruct W.E t) (h : First W M o t ca v r) :
    ∃ l pre m post x, MembersOf W.U.isLetter W.U.isDigit W.E t l ∧ l = pre ++ m :: post ∧
      (∀ m' ∈ pre, ¬ LeftOut o v m' → ∀ y, FieldAt v m'.path y → Blameless W M o m'.decl.typ ca y) ∧
      ¬ LeftOut o v m ∧ FieldAt v m.path x ∧ First W M o m.decl.typ ca x r := by
  have hs := hb.special
  obtain ⟨fs, hk⟩ := hst
  replace hk : (W.E t).kind = .struct fs := hk
  cases h with
  | fault _ h => exact absurd h (fault_kind hb (by simp [hk]) (by simp [hk]) (by simp [hk]))
  | method _ hp => exact absurd hb (picks_byKind hp)
  | field _ _ a1 a2 a3 a4 a5 a6 => exact ⟨_, _, _, _, _, a1, a2, a3, a4, a5, a6⟩
  | _ => simp_all

/-- What stops at an entry of a map. -/
inductive EntryFirst1 (W : World) (M : MethV) (o : EncOpts) (k e : TId) (kv : Val × Val) : Option Err → Prop
  | key {x : Option Err} : (W.E k).kind ≠ .string → ((W.E k).meths.text = true → IsPtr W.E k → kv.1 ≠ .nil) → First W M o k false kv.1 x → EntryFirst1 W M o k e kv x
  | short : (W.E k).kind ≠ .string → bmHas o.flags .unsortedMap = false →
      (((W.E k).meths.text = true → IsPtr W.E k → kv.1 ≠ .nil) → Blameless W M o k false kv.1) → ShortKey W M o k false kv.1 → EntryFirst1 W M o k e kv none
  | elem {x : Option Err} : KeyPasses W M o k kv.1 → First W M o e false kv.2 x → EntryFirst1 W M o k e kv x

theorem entryFirst1_blame {k e : TId} {kv : Val × Val} (h : EntryFirst1 W M o k e kv r) : ¬ EntryPasses W M o k e kv := by
  intro ⟨h1, h2⟩
  cases h with
  | key a1 a2 a3 => exact first_blame a3 ((h1 a1).1 a2)
  | short a1 a2 _ a3 => exact (h1 a1).2 a2 a3
  | elem _ h => exact first_blame h h2

theorem f_map (hb : ByKind W.E t ca) {k e : TId} (hk : (W.E t).kind = .map k e) (hkt : KeyType W.E k) {kvs : List (Val × Val)}
    (h : First W M o t ca (.map kvs) r) : ∃ kv ∈ kvs, EntryFirst1 W M o k e kv r := by
  have hs := hb.special
  cases h with
  | fault _ h => exact absurd h (fault_kind hb (by simp [hk]) (by simp [hk]) (by rintro k' e' h; rw [hk] at h; cases h; exact hkt))
  | method _ hp => exact absurd hb (picks_byKind hp)
  | field _ hst => exact absurd hst (struct_not hk (by simp))
  | key _ hk' _ a1 a2 a3 a4 => rw [hk] at hk'; cases hk'; exact ⟨_, a3, .key a1 a2 a4⟩
  | short _ hk' a1 a2 a3 a4 a5 => rw [hk] at hk'; cases hk'; exact ⟨_, a3, .short a1 a2 a4 a5⟩
  | elem _ hk' _ a1 a2 a3 => rw [hk] at hk'; cases hk'; exact ⟨_, a1, .elem a2 a3⟩

/-- What stops at an entry of a `sync.Map`. -/
inductive SyncFirst1 (W : World) (M : MethV) (o : EncOpts) (kv : Val × Val) : Option Err → Prop
  | nilKey : kv.1 = .nil → SyncFirst1 W M o kv (some .syncMapNilKey)
  | badKey {d : TId} {y : Val} : kv.1 = .iface d y → ¬ KeyType W.E d → SyncFirst1 W M o kv (some (.syncMapKey d))
  | key {d : TId} {y : Val} {x : Option Err} : kv.1 = .iface d y → KeyType W.E d → (W.E d).kind ≠ .string → First W M o d (isPtrK (W.E d).kind) y x →
      SyncFirst1 W M o kv x
  | short {d : TId} {y : Val} : bmHas o.flags .unsortedMap = false → kv.1 = .iface d y → (W.E d).kind ≠ .string → Blameless W M o d (isPtrK (W.E d).kind) y →
      ShortKey W M o d (isPtrK (W.E d).kind) y → SyncFirst1 W M o kv none
  | nilElem : SyncKeyPasses W M o kv.1 → kv.2 = .nil → SyncFirst1 W M o kv none
  | elem {d : TId} {y : Val} {x : Option Err} : SyncKeyPasses W M o kv.1 → kv.2 = .iface d y → First W M o d (isPtrK (W.E d).kind) y x → SyncFirst1 W M o kv x

theorem syncFirst1_blame {kv : Val × Val} (h : SyncFirst1 W M o kv r) : ¬ SyncEntryPasses W M o kv := by
  intro ⟨⟨d, x, h1, h2, h3⟩, d', x', h4, h5⟩
  cases h with
  | nilKey a1 => rw [a1] at h1; cases h1
  | badKey a1 a2 => rw [a1] at h1; cases h1; exact a2 h2
  | key a1 a2 a3 a4 => rw [a1] at h1; cases h1; exact first_blame a4 (h3 a3).1
  | short a1 a2 a3 _ a4 => rw [a2] at h1; cases h1; exact (h3 a3).2 a1 a4
  | nilElem _ a1 => rw [a1] at h4; cases h4
  | elem _ a1 a2 => rw [a1] at h4; cases h4; exact first_blame a2 h5

theorem f_smap (hs : (W.E t).special = some .syncMap) {kvs : List (Val × Val)} (h : First W M o t ca (.smap kvs) r) : ∃ kv ∈ kvs, SyncFirst1 W M o kv r := by
  have hb : ¬ ByKind W.E t ca := fun h => by have := h.special; rw [hs] at this; cases this
  cases h with
  | fault h => exact absurd hs h
  | method h => rw [hs] at h; cases h
  | field h => exact absurd h hb
  | nilKey _ a1 a2 => exact ⟨_, a1, .nilKey a2⟩
  | badKey _ a1 a2 a3 => exact ⟨_, a1, .badKey a2 a3⟩
  | skey _ a1 a2 a3 a4 a5 => exact ⟨_, a1, .key a2 a3 a4 a5⟩
  | sshort _ a1 a2 a3 a4 a5 a6 => exact ⟨_, a2, .short a1 a3 a4 a5 a6⟩
  | nilElem _ a1 a2 a3 => exact ⟨_, a1, .nilElem a2 a3⟩
  | selem _ a1 a2 a3 a4 => exact ⟨_, a1, .elem a2 a3 a4⟩

/-! ## At most one first fault -/

theorem called_once (hM : PathFree M) {m m' : MethKind} {rt rt' u u' : TId} {x x' : Val} {path path' : Path} (hp : Picks W.E t ca m) (hp' : Picks W.E t ca m')
    (hr : Receives W.E W.ptrTo t m v rt x u) (hr' : Receives W.E W.ptrTo t m' v rt' x' u') :
    m = m' ∧ u = u' ∧ M path m (argCtx o m) rt x [] = M path' m' (argCtx o m') rt' x' [] := by
  have := picks_unique hp hp'
  subst this
  obtain ⟨rfl, rfl, rfl⟩ := receives_unique hr hr'
  exact ⟨rfl, rfl, by rw [hM path path']⟩

theorem fault_unique (hM : PathFree M) (hs : (W.E t).special ≠ some .syncMap) {e e' : Err} (h : Fault W M o t ca v e) (h' : Fault W M o t ca v e') : e = e' := by
  have nb : ∀ {m}, Picks W.E t ca m → ¬ ByKind W.E t ca := fun hp => picks_byKind hp
  cases h with
  | float hb hk hn =>
    have := hb.special
    cases h' with
    | float => rfl
    | typ _ h => rw [hk] at h; rcases h with h | ⟨_, _, h, -⟩ <;> cases h
    | method _ hp => exact absurd hb (nb hp)
    | malformed _ hp => exact absurd hb (nb hp)
  | seconds hs hd =>
    cases h' with
    | seconds => rfl
    | minutes _ h => rw [hd] at h; cases h
    | typ h => have := h.special; rw [hs] at this; cases this
    | method h => rw [hs] at h; cases h
    | malformed h => rw [hs] at h; cases h
  | minutes hs hd =>
    cases h' with
    | minutes => rfl
    | seconds _ h => rw [hd] at h; cases h
    | typ h => have := h.special; rw [hs] at this; cases this
    | method h => rw [hs] at h; cases h
    | malformed h => rw [hs] at h; cases h
  | number hs =>
    cases h' with
    | number => rfl
    | typ h => have := h.special; rw [hs] at this; cases this
    | method h => rw [hs] at h; cases h
    | malformed h => rw [hs] at h; cases h
  | time hs =>
    cases h' with
    | time => rfl
    | typ h => have := h.special; rw [hs] at this; cases this
    | method h => rw [hs] at h; cases h
    | malformed h => rw [hs] at h; cases h
  | typ hb hk =>
    rcases fault_byKind hb h' with ⟨w, b, h, -⟩ | h
    · rw [h] at hk; rcases hk with h | ⟨_, _, h, -⟩ <;> cases h
    · have hsp := hb.special
      cases h' with
      | typ => rfl
      | float _ h' => rw [h'] at h; rcases h with h | ⟨_, _, h, -⟩ <;> cases h
      | method _ hp => exact absurd hb (nb hp)
      | malformed _ hp => exact absurd hb (nb hp)
      | _ => simp_all
  | method hs hp hr he =>
    cases h' with
    | method _ hp' hr' he' =>
      obtain ⟨rfl, rfl, hc⟩ := called_once (o := o) hM hp hp' hr hr'
      rw [he, he'] at hc
      cases hc; rfl
    | malformed _ hp' hr' he' =>
      obtain ⟨rfl, -, hc⟩ := called_once (o := o) hM hp hp' hr hr'
      rw [he] at hc
      exact absurd (hc.trans he') (by simp)
    | float hb => exact absurd hb (nb hp)
    | typ hb => exact absurd hb (nb hp)
    | _ => simp_all
  | malformed hs hp hr he =>
    cases h' with
    | method _ hp' hr' he' =>
      obtain ⟨rfl, -, hc⟩ := called_once (o := o) hM hp hp' hr hr'
      rw [he'] at hc
      exact absurd (he.symm.trans hc) (by simp)
    | malformed _ hp' hr' he' =>
      obtain ⟨-, rfl, -⟩ := called_once (o := o) (path := []) (path' := []) hM hp hp' hr hr'
      rfl
    | float hb => exact absurd hb (nb hp)
    | typ hb => exact absurd hb (nb hp)
    | _ => simp_all
  | nilKey h => exact absurd h hs
  | badKey h => exact absurd h hs

theorem fault_no_panic (hM : PathFree M) {e : Err} {m : MethKind} {rt u : TId} {x : Val} {path : Path} (h : Fault W M o t ca v e)
    (hs : (W.E t).special = none) (hp : Picks W.E t ca m) (hr : Receives W.E W.ptrTo t m v rt x u) (hc : M path m (argCtx o m) rt x [] = .panic) : False := by
  cases h with
  | float hb => exact picks_byKind hp hb
  | typ hb => exact picks_byKind hp hb
  | method _ hp' hr' he =>
    obtain ⟨-, -, h⟩ := called_once (o := o) hM hp hp' hr hr'
    rw [hc, he] at h
    cases h
  | malformed _ hp' hr' he =>
    obtain ⟨rfl, -, h⟩ := called_once (o := o) hM hp hp' hr hr'
    rw [hc] at h
    exact absurd (h.trans he) (by simp)
  | _ => simp_all

/-- A value at fault itself has no parts at fault. -/
theorem fault_self (hs : (W.E t).special ≠ some .syncMap) {e : Err} (h : Fault W M o t ca v e) (h' : First W M o t ca v r) :
    (∃ e', r = some e' ∧ Fault W M o t ca v e') ∨ (∃ m rt x u path, (W.E t).special = none ∧ Picks W.E t ca m ∧ Receives W.E W.ptrTo t m v rt x u ∧
      M path m (argCtx o m) rt x [] = .panic ∧ r = none) := by
  cases h' with
  | fault _ h => exact .inl ⟨_, rfl, h⟩
  | method a1 a2 a3 a4 => exact .inr ⟨_, _, _, _, _, a1, a2, a3, a4, rfl⟩
  | ptr hb hk => exact absurd h (fault_kind hb (by simp [hk]) (by simp [hk]) (by simp [hk]))
  | iface hb hk => exact absurd h (fault_kind hb (by simp [hk]) (by simp [hk]) (by simp [hk]))
  | slice hb hk => exact absurd h (fault_kind hb (by simp [hk]) (by simp [hk]) (by simp [hk]))
  | array hb hk => exact absurd h (fault_kind hb (by simp [hk]) (by simp [hk]) (by simp [hk]))
  | field hb hst =>
    obtain ⟨fs, hk⟩ := hst
    replace hk : (W.E t).kind = .struct fs := hk
    exact absurd h (fault_kind hb (by simp [hk]) (by simp [hk]) (by simp [hk]))
  | key hb hk hkt => exact absurd h (fault_kind hb (by simp [hk]) (by simp [hk]) (by rintro k' e' h; rw [hk] at h; cases h; exact hkt))
  | short hb hk _ _ _ _ hsk =>
    exact absurd h (fault_kind hb (by simp [hk]) (by simp [hk]) (by rintro k' e' h; rw [hk] at h; cases h; exact .inr (.inr (short_text hsk))))
  | elem hb hk hkt => exact absurd h (fault_kind hb (by simp [hk]) (by simp [hk]) (by rintro k' e' h; rw [hk] at h; cases h; exact hkt))
  | nilKey h1 => exact absurd h1 hs
  | badKey h1 => exact absurd h1 hs
  | skey h1 => exact absurd h1 hs
  | sshort h1 => exact absurd h1 hs
  | nilElem h1 => exact absurd h1 hs
  | selem h1 => exact absurd h1 hs

theorem fieldAt_one {x y : Val} {p : List Nat} (h : FieldAt v p x) (h' : FieldAt v p y) : x = y := by
  have a1 := fieldAt_iff.mp h
  have a2 := fieldAt_iff.mp h'
  rw [a1] at a2; cases a2; rfl

theorem keyPasses_first {k : TId} {x : Val} (h : KeyPasses W M o k x) (h1 : (W.E k).kind ≠ .string)
    (h2 : (W.E k).meths.text = true → IsPtr W.E k → x ≠ .nil) (hf : First W M o k false x r) : False := first_blame hf ((h h1).1 h2)

theorem syncPasses_first {d : TId} {x y : Val} (h : SyncKeyPasses W M o y) (hy : y = .iface d x) (h1 : (W.E d).kind ≠ .string)
    (hf : First W M o d (isPtrK (W.E d).kind) x r) : False := by
  obtain ⟨d', x', h2, -, h3⟩ := h
  rw [hy] at h2; cases h2
  exact first_blame hf (h3 h1).1

theorem syncPasses_short {d : TId} {x y : Val} (h : SyncKeyPasses W M o y) (hy : y = .iface d x) (h1 : (W.E d).kind ≠ .string)
    (hu : bmHas o.flags .unsortedMap = false) (hs : ShortKey W M o d (isPtrK (W.E d).kind) x) : False := by
  obtain ⟨d', x', h2, -, h3⟩ := h
  rw [hy] at h2; cases h2
  exact (h3 h1).2 hu hs

/-- C58: of a value there is at most one first fault, in each map at most one entry at fault
assumed. -/
theorem C58_unique (hM : PathFree M) (h : First W M o t ca v r) : OneEntry W M o t ca v → ∀ {r'}, First W M o t ca v r' → r = r' := by
  induction h with
  | fault hs h =>
    intro _ r' h'
    rcases fault_self hs h h' with ⟨e', rfl, h2⟩ | ⟨m, rt, x, u, path, a1, a2, a3, a4, -⟩
    · rw [fault_unique hM hs h h2]
    · exact (fault_no_panic hM h a1 a2 a3 a4).elim
  | @method t ca m v rt x u path a1 a2 a3 a4 =>
    intro _ r' h'
    have hb : ¬ ByKind W.E t ca := picks_byKind a2
    have hs : (W.E t).special ≠ some .syncMap := by rw [a1]; nofun
    cases h' with
    | fault _ h => exact (fault_no_panic hM h a1 a2 a3 a4).elim
    | method => rfl
    | _ => first | exact absurd ‹ByKind _ _ _› hb | exact absurd ‹_› hs
  | ptr hb hk _ ih => exact fun ho r' h' => ih (ho.part (.ptr hb hk)) (f_ptr hb hk h')
  | iface hb hk _ ih => exact fun ho r' h' => ih (ho.part (.iface hb hk)) (f_iface hb hk h')
  | slice hb hk hB he hpre hf ih =>
    intro ho r' h'
    obtain ⟨pre', x', post', he', hpre', hf'⟩ := f_slice hb hk h'
    have := split_unique (he.symm.trans he') hpre hpre' (first_blame hf) (first_blame hf')
    subst this
    exact ih (ho.part (.slice hb hk hB (by simp [he]))) hf'
  | array hb hk hB he hpre hf ih =>
    intro ho r' h'
    obtain ⟨pre', x', post', he', hpre', hf'⟩ := f_array hb hk h'
    have := split_unique (he.symm.trans he') hpre hpre' (first_blame hf) (first_blame hf')
    subst this
    exact ih (ho.part (.array hb hk hB (by simp [he]))) hf'
  | field hb hst hl he hpre hno hat hf ih =>
    intro ho r' h'
    obtain ⟨l', pre', m', post', x', hl', he', hpre', hno', hat', hf'⟩ := f_struct hb hst h'
    have := membersOf_unique hl hl'
    subst this
    have := split_unique (he.symm.trans he') hpre hpre' (fun h => first_blame hf (h hno _ hat)) (fun h => first_blame hf' (h hno' _ hat'))
    subst this
    have := fieldAt_one hat hat'
    subst this
    exact ih (ho.part (.field hb hst ((hl.2 _).mp (by simp [he])) hno hat)) hf'
  | key hb hk hkt h1 h2 hm hf ih =>
    intro ho r' h'
    obtain ⟨kv', hm', h3⟩ := f_map hb hk hkt h'
    have := ho.map _ _ _ _ _ .refl hk _ hm _ hm' (entryFirst1_blame (.key h1 h2 hf)) (entryFirst1_blame h3)
    subst this
    cases h3 with
    | key _ _ hf' => exact ih (ho.part (.key hb hk hkt h1 h2 hm)) hf'
    | short _ _ hbl => exact absurd (hbl h2) (first_blame hf)
    | elem hp _ => exact (keyPasses_first hp h1 h2 hf).elim
  | short hb hk h1 hu hm hbl hsk =>
    intro ho r' h'
    obtain ⟨kv', hm', h3⟩ := f_map hb hk (.inr (.inr (short_text hsk))) h'
    have := ho.map _ _ _ _ _ .refl hk _ hm _ hm' (entryFirst1_blame (.short h1 hu hbl hsk)) (entryFirst1_blame h3)
    subst this
    cases h3 with
    | key _ h2 hf' => exact absurd (hbl h2) (first_blame hf')
    | short => rfl
    | elem hp _ => exact ((hp h1).2 hu hsk).elim
  | elem hb hk hkt hm hp hf ih =>
    intro ho r' h'
    obtain ⟨kv', hm', h3⟩ := f_map hb hk hkt h'
    have := ho.map _ _ _ _ _ .refl hk _ hm _ hm' (entryFirst1_blame (.elem hp hf)) (entryFirst1_blame h3)
    subst this
    cases h3 with
    | key h1 h2 hf' => exact (keyPasses_first hp h1 h2 hf').elim
    | short h1 hu _ hsk => exact ((hp h1).2 hu hsk).elim
    | elem _ hf' => exact ih (ho.part (.elem hb hk hkt hm)) hf'
  | nilKey hs hm hn =>
    intro ho r' h'
    obtain ⟨kv', hm', h3⟩ := f_smap hs h'
    have := ho.smap _ _ _ .refl _ hm _ hm' (syncFirst1_blame (.nilKey hn)) (syncFirst1_blame h3)
    subst this
    cases h3 with
    | nilKey => rfl
    | badKey h => rw [hn] at h; cases h
    | key h => rw [hn] at h; cases h
    | short _ h => rw [hn] at h; cases h
    | nilElem hp => obtain ⟨_, _, h, -⟩ := hp; rw [hn] at h; cases h
    | elem hp => obtain ⟨_, _, h, -⟩ := hp; rw [hn] at h; cases h
  | badKey hs hm hn hkt =>
    intro ho r' h'
    obtain ⟨kv', hm', h3⟩ := f_smap hs h'
    have := ho.smap _ _ _ .refl _ hm _ hm' (syncFirst1_blame (.badKey hn hkt)) (syncFirst1_blame h3)
    subst this
    cases h3 with
    | nilKey h => rw [hn] at h; cases h
    | badKey h => rw [hn] at h; cases h; rfl
    | key h h1 => rw [hn] at h; cases h; exact absurd h1 hkt
    | short _ h _ _ h1 => rw [hn] at h; cases h; exact absurd (.inr (.inr (short_text h1))) hkt
    | nilElem hp => obtain ⟨_, _, h, h1, -⟩ := hp; rw [hn] at h; cases h; exact absurd h1 hkt
    | elem hp => obtain ⟨_, _, h, h1, -⟩ := hp; rw [hn] at h; cases h; exact absurd h1 hkt
  | skey hs hm hn hkt h1 hf ih =>
    intro ho r' h'
    obtain ⟨kv', hm', h3⟩ := f_smap hs h'
    have := ho.smap _ _ _ .refl _ hm _ hm' (syncFirst1_blame (.key hn hkt h1 hf)) (syncFirst1_blame h3)
    subst this
    cases h3 with
    | nilKey h => rw [hn] at h; cases h
    | badKey h h1 => rw [hn] at h; cases h; exact absurd hkt h1
    | key h _ _ hf' => rw [hn] at h; cases h; exact ih (ho.part (.skey hs hm hn hkt h1)) hf'
    | short _ h _ hbl => rw [hn] at h; cases h; exact absurd hbl (first_blame hf)
    | nilElem hp => exact (syncPasses_first hp hn h1 hf).elim
    | elem hp => exact (syncPasses_first hp hn h1 hf).elim
  | sshort hs hu hm hn h1 hbl hsk =>
    intro ho r' h'
    obtain ⟨kv', hm', h3⟩ := f_smap hs h'
    have := ho.smap _ _ _ .refl _ hm _ hm' (syncFirst1_blame (.short hu hn h1 hbl hsk)) (syncFirst1_blame h3)
    subst this
    cases h3 with
    | nilKey h => rw [hn] at h; cases h
    | badKey h h1 => rw [hn] at h; cases h; exact absurd (.inr (.inr (short_text hsk))) h1
    | key h _ _ hf' => rw [hn] at h; cases h; exact absurd hbl (first_blame hf')
    | short => rfl
    | nilElem hp => exact (syncPasses_short hp hn h1 hu hsk).elim
    | elem hp => exact (syncPasses_short hp hn h1 hu hsk).elim
  | nilElem hs hm hp hn =>
    intro ho r' h'
    obtain ⟨kv', hm', h3⟩ := f_smap hs h'
    have := ho.smap _ _ _ .refl _ hm _ hm' (syncFirst1_blame (.nilElem hp hn)) (syncFirst1_blame h3)
    subst this
    cases h3 with
    | nilKey h2 => obtain ⟨_, _, h, h1, -⟩ := hp; rw [h2] at h; cases h
    | badKey h2 hno => obtain ⟨_, _, h, h1, -⟩ := hp; rw [h2] at h; cases h; exact absurd h1 hno
    | key h _ h1 hf' => exact (syncPasses_first hp h h1 hf').elim
    | short hu h h1 _ hsk => exact (syncPasses_short hp h h1 hu hsk).elim
    | nilElem => rfl
    | elem _ h => rw [hn] at h; cases h
  | selem hs hm hp hn hf ih =>
    intro ho r' h'
    obtain ⟨kv', hm', h3⟩ := f_smap hs h'
    have := ho.smap _ _ _ .refl _ hm _ hm' (syncFirst1_blame (.elem hp hn hf)) (syncFirst1_blame h3)
    subst this
    cases h3 with
    | nilKey h2 => obtain ⟨_, _, h, h1, -⟩ := hp; rw [h2] at h; cases h
    | badKey h2 hno => obtain ⟨_, _, h, h1, -⟩ := hp; rw [h2] at h; cases h; exact absurd h1 hno
    | key h _ h1 hf' => exact (syncPasses_first hp h h1 hf').elim
    | short hu h h1 _ hsk => exact (syncPasses_short hp h h1 hu hsk).elim
    | nilElem _ h => rw [hn] at h; cases h
    | elem _ h hf' => rw [hn] at h; cases h; exact ih (ho.part (.selem hs hm hn)) hf'

/-! ## Calls -/

theorem appendJSON_first (D : FaultReady W H M) (hM : PathFree M) {w : Addr} (hx : ReprE W.E H.mem (some (t, w)) (.iface t v)) (n : Nat) (path : Path) :
    FirstJ W M o t (isPtrK (W.E t).kind) v (appendJSON W (run W H o n) path (some (t, w)) []) := by
  rw [appendJSON_eq (run_agrees D.ready n).2 hx]
  rcases reprE_cases hx with h | ⟨d, y, h, hp⟩
  · cases h
  · cases h
    exact first_held (first_upto D hM n) hp path

/-- C58: the error of a call is that of the first part at fault: elements come in their order,
fields in the order of their declaration, the key of an entry before its value. -/
theorem C58_error (D : FaultReady W H M) (hM : PathFree M) {w : Addr} (hx : ReprE W.E H.mem (some (t, w)) (.iface t v)) {opts : List (Option Opt)}
    (ho : prepare opts = .ok o) (n : Nat) (dst : Bytes) {e : Err}
    (h : (∃ r, marshalOpts W H n (some (t, w)) opts = .ret r (some (.encoding e))) ∨
      ∃ r, appendOpts W H n dst (some (t, w)) opts = .ret r (some (.encoding e))) :
    First W M o t (isPtrK (W.E t).kind) v (some e) := by
  have hJ := appendJSON_first (o := o) D hM hx n []
  obtain ⟨e1, e2⟩ := calls_by D.fmt D hx ho n dst
  rw [e1, e2] at h
  cases hr : appendJSON W (run W H o n) [] (some (t, w)) [] with
  | fail e' b =>
    rw [hr] at h hJ
    have : e' = e := by
      rcases h with ⟨r, h⟩ | ⟨r, h⟩
      · cases h; rfl
      · cases h; rfl
    subst this
    exact hJ _ rfl
  | _ => rw [hr] at h; rcases h with ⟨r, h⟩ | ⟨r, h⟩ <;> cases h

/-- C58: a call panics if the first fault is one that makes it panic. -/
theorem C58_panic (D : FaultReady W H M) (hM : PathFree M) {w : Addr} (hx : ReprE W.E H.mem (some (t, w)) (.iface t v)) {opts : List (Option Opt)}
    (ho : prepare opts = .ok o) (n : Nat) (dst : Bytes)
    (h : marshalOpts W H n (some (t, w)) opts = .panic ∨ appendOpts W H n dst (some (t, w)) opts = .panic) :
    First W M o t (isPtrK (W.E t).kind) v none := by
  have hJ := appendJSON_first (o := o) D hM hx n []
  obtain ⟨e1, e2⟩ := calls_by D.fmt D hx ho n dst
  rw [e1, e2] at h
  cases hr : appendJSON W (run W H o n) [] (some (t, w)) [] with
  | panic => rw [hr] at hJ; exact hJ _ rfl
  | _ => rw [hr] at h; rcases h with h | h <;> cases h

/-- C58: a call that ends returns the error of the first fault, or panics with it; `Append` gives
back what it was given, followed by what was written before the fault. -/
theorem C58_exact (D : FaultReady W H M) (hM : PathFree M) {w : Addr} (hx : ReprE W.E H.mem (some (t, w)) (.iface t v)) {opts : List (Option Opt)}
    (ho : prepare opts = .ok o) (n : Nat) (dst : Bytes) (hn : marshalOpts W H n (some (t, w)) opts ≠ .nofuel)
    (hone : OneEntry W M o t (isPtrK (W.E t).kind) v) :
    (∀ e, First W M o t (isPtrK (W.E t).kind) v (some e) →
      marshalOpts W H n (some (t, w)) opts = .ret none (some (.encoding e)) ∧
      ∃ b, appendOpts W H n dst (some (t, w)) opts = .ret (some (dst ++ b)) (some (.encoding e))) ∧
    (First W M o t (isPtrK (W.E t).kind) v none →
      marshalOpts W H n (some (t, w)) opts = .panic ∧ appendOpts W H n dst (some (t, w)) opts = .panic) := by
  have hJ := appendJSON_first (o := o) D hM hx n []
  have hJ' := appendJSON_judged (o := o) D hx n []
  have hnb := appendJSON_nobad (run_sound (o := o) D.ready n).2 hx []
  obtain ⟨e1, e2⟩ := calls_by D.fmt D hx ho n dst
  rw [e1] at hn
  rw [e1, e2]
  cases hr : appendJSON W (run W H o n) [] (some (t, w)) [] with
  | ok b =>
    have hcl := hJ'.ok b hr hM
    exact ⟨fun e he => absurd hcl (first_blame he), fun he => absurd hcl (first_blame he)⟩
  | fail e b =>
    have hf := hJ (some e) (by rw [hr]; rfl)
    refine ⟨fun e' he => ?_, fun he => ?_⟩
    · have := C58_unique hM hf hone he
      cases this
      exact ⟨rfl, b, rfl⟩
    · have := C58_unique hM hf hone he
      cases this
  | panic =>
    have hf := hJ none (by rw [hr]; rfl)
    refine ⟨fun e' he => ?_, fun he => ⟨rfl, rfl⟩⟩
    have := C58_unique hM hf hone he
    cases this
  | bad => exact absurd hr (hnb _)
  | nofuel => rw [hr] at hn; exact absurd rfl hn

/-- C58 on finite types and data, where the call ends (C33): `Marshal` returns an error if and only if
it is that of the first fault, and panics if and only if the first fault makes it panic. -/
theorem C58_iff {g n : Nat} {S : List TId} {c : Call} (hc : FiniteCall W g n c S M) (D : FaultReady (c.world W) c.heap M) (hM : PathFree M) {w : Addr}
    (hv : c.value = some (t, w)) (hx : ReprE W.E c.heap.mem (some (t, w)) (.iface t v)) {opts : List (Option Opt)} (ho : prepare opts = .ok o)
    (hone : OneEntry (c.world W) M o t (isPtrK (W.E t).kind) v) :
    (∀ e, marshalOpts (c.world W) c.heap n (some (t, w)) opts = .ret none (some (.encoding e)) ↔ First (c.world W) M o t (isPtrK (W.E t).kind) v (some e)) ∧
    (marshalOpts (c.world W) c.heap n (some (t, w)) opts = .panic ↔ First (c.world W) M o t (isPtrK (W.E t).kind) v none) := by
  have hn : marshalOpts (c.world W) c.heap n (some (t, w)) opts ≠ .nofuel := by
    simp only [marshalOpts, ho, marshalJSON]
    have := appendJSON_ends hc hv o [] []
    generalize appendJSON (c.world W) (run (c.world W) c.heap o n) [] (some (t, w)) [] = r at this
    cases r with
    | nofuel => exact absurd rfl this
    | _ => simp [marshalRet]
  obtain ⟨h1, h2⟩ := C58_exact D hM hx ho n [] hn hone
  exact ⟨fun e => ⟨fun h => C58_error D hM hx ho n [] (.inl ⟨_, h⟩), fun h => (h1 e h).1⟩,
    fun h => C58_panic D hM hx ho n [] (.inl h), fun h => (h2 h).1⟩

/-- The hypothesis of `C58_exact` about maps holds if none has more than one entry. -/
theorem oneEntry_small (G : GoTypes W.E W.ptrTo) (hv : HasType W.E t v)
    (h : ∀ t' v', Within W.E t v t' v' → ∀ kvs, v' = .map kvs ∨ v' = .smap kvs → kvs.length ≤ 1) : OneEntry W M o t ca v := by
  have one : ∀ {kvs : List (Val × Val)}, kvs.length ≤ 1 → ∀ a ∈ kvs, ∀ b ∈ kvs, a = b := by
    intro kvs hl a ha b hb
    match kvs, hl with
    | [], _ => cases ha
    | [x], _ => simp at ha hb; rw [ha, hb]
  exact ⟨fun _ _ _ _ _ he _ a ha b hb _ _ => one (h _ _ (encodes_within G he hv) _ (.inl rfl)) a ha b hb,
    fun _ _ _ he a ha b hb _ _ => one (h _ _ (encodes_within G he hv) _ (.inr rfl)) a ha b hb⟩

/-! ## Examples -/

/-- At 100 the `Full` of `shopCells`, with three parts at fault: the second element of `L` fails, the
third panics, and so does `N`. -/
def worstCells : List (Addr × Cell) :=
  [(100, .word 200), (108, .slice 240 3), (132, .word 290), (290, .hmap [(300, 316)]), (140, .int (.uint8 1)), (141, .int (.uint8 2)), (142, .int (.uint8 3)),
   (148, .eface (some (0, 320))), (164, .int (.int 5)), (172, .str (b! "boom")), (200, .int (.int 9)), (208, .int (.int64 1000000000)), (216, .str (b! "base")),
   (240, .str (b! "a")), (256, .str (b! "fail")), (272, .str (b! "boom")), (300, .str (b! "k")), (316, .int (.int 4)), (320, .int (.int 6))]

def worstV : Val :=
  .struct [.ptr (.struct [.int (.int 9), .int (.int64 1000000000), .str (b! "base")]), .slice [.str (b! "a"), .str (b! "fail"), .str (b! "boom")],
    .map [(.str (b! "k"), .int (.int 4))], .array [.int (.uint8 1), .int (.uint8 2), .int (.uint8 3)], .iface 0 (.int (.int 6)),
    .struct [.int (.int 5)], .str (b! "boom")]

theorem worst_holds : ReprE shopW.E (shopH worstCells).mem (some (42, 100)) (.iface 42 worstV) := shop_holds 8 (by decide +kernel)

theorem worst_one : OneEntry shopW (univM shopMeth) defaultEncOpts 42 false worstV := by
  refine oneEntry_small (shop_ready worstCells).types ?_ fun t' v' h kvs hk => ?_
  · rcases reprE_cases worst_holds with h | ⟨d, y, h, p, hp⟩
    · cases h
    · cases h; exact repr_hasType hp
  · have := allParts_within (E := shopW.E) (P := fun _ v => match v with | .map kvs => kvs.length ≤ 1 | .smap kvs => kvs.length ≤ 1 | _ => true) (n := 6)
      (by decide +kernel) h
    rcases hk with rfl | rfl <;> simpa using this

/-- The hypotheses of `C58_error`. -/
theorem worst_first : First shopW (univM shopMeth) defaultEncOpts 42 false worstV (some (.marshaler 22 .json (.user 3))) :=
  C58_error (opts := []) (shop_faults worstCells) shop_pathFree worst_holds rfl 9 [] (.inl ⟨none, by decide +kernel⟩)

/-- The hypotheses of `C58_unique`: no other fault is reported, though there are others. -/
example (r : Option Err) (h : First shopW (univM shopMeth) defaultEncOpts 42 false worstV r) : r = some (.marshaler 22 .json (.user 3)) :=
  (C58_unique shop_pathFree worst_first worst_one h).symm

/-- The hypotheses of `C58_exact`. -/
example : ∃ b, appendOpts shopW (shopH worstCells) 9 (b! "x") (some (42, 100)) [] = .ret (some (b! "x" ++ b)) (some (.encoding (.marshaler 22 .json (.user 3)))) :=
  ((C58_exact (opts := []) (shop_faults worstCells) shop_pathFree worst_holds rfl 9 (b! "x") (by decide +kernel) worst_one).1 _ worst_first).2

/-- `First` by its rules: the first element of a `[]Loud` panics, the second fails. -/
theorem boom_first : First shopW (univM shopMeth) defaultEncOpts 46 false (.slice [.str (b! "boom"), .str (b! "fail")]) none :=
  .slice (pre := []) ⟨rfl, by unfold MethSet.any; decide +kernel, by simp⟩ (e := 22) rfl (by unfold ByteElem; decide +kernel) rfl (by simp)
    (.method (m := .json) (path := []) (by decide +kernel) (by decide +kernel) (.own (by decide +kernel) (by rintro ⟨n, h⟩; cases h) (by rintro ⟨n, h⟩; cases h)) rfl)

/-- The hypotheses of `C58_panic`. -/
example : First shopW (univM shopMeth) defaultEncOpts 46 false (.slice [.str (b! "boom"), .str (b! "fail")]) none :=
  C58_panic (opts := []) (shop_faults [(500, .slice 520 2), (520, .str (b! "boom")), (536, .str (b! "fail"))]) shop_pathFree (w := 500) (shop_holds 8 (by decide +kernel)) rfl 9 []
    (.inl (by decide +kernel))

/-- The ring of `C51_iff`, which has no fault: the hypotheses of `C58_iff`. -/
example : ¬ First (ringB.world shopW) (univM shopMeth) defaultEncOpts 129 true ringV none := by
  rw [show true = isPtrK (shopW.E 129).kind from rfl,
    ← (C58_iff (opts := []) ringB_finite (shop_faults ringCells) shop_pathFree (w := 500) rfl ringV_holds rfl ?_).2]
  · decide +kernel
  · refine oneEntry_small (shop_ready ringCells).types ?_ fun t' v' h kvs hk => ?_
    · rcases reprE_cases ringV_holds with h | ⟨d, y, h, p, hp⟩
      · cases h
      · cases h; exact repr_hasType hp
    · have := allParts_within (E := shopW.E) (P := fun _ v => match v with | .map kvs => kvs.length ≤ 1 | .smap kvs => kvs.length ≤ 1 | _ => true) (n := 6)
        (by decide +kernel) h
      rcases hk with rfl | rfl <;> simpa using this

/-- Two entries at fault: an `int` key with a `Loud` that fails and one with a `Loud` that panics. -/
def eitherCells : List (Addr × Cell) :=
  [(100, .hmap [(110, 120), (140, 150)]), (110, .int (.int 1)), (140, .int (.int 7)), (120, .eface (some (22, 500))), (150, .eface (some (22, 520))),
   (500, .str (b! "boom")), (520, .str (b! "fail"))]

/-- C58: which of several entries at fault is reported depends on the order in which Go visits the
map, so the hypothesis of `C58_unique` cannot be dropped. -/
theorem C58_any_entry :
    marshal shopW (shopH eitherCells) 9 (some (32, 100)) = .ret none (some (.encoding (.marshaler 22 .json (.user 3)))) ∧
    marshal { shopW with order := forwards } (shopH eitherCells) 9 (some (32, 100)) = .panic := by
  constructor <;> decide +kernel

end Jettison.Props
