import Verif.Proofs.Std
import Verif.Props.WritesExact

/-!
# C57: what encoding/json writes

`StdWrites` (Spec/Std) describes what `json.Marshal` of the standard library writes. On the values
described by `StdAlike` the default options make jettison write the same.
-/

namespace Jettison.Props
open Jettison Jettison.Model Jettison.Spec Jettison.Proofs

variable {W : World} {M : MethV} {o : EncOpts} {t : TId} {ca q : Bool} {v : Val} {b : Bytes}

/-! ## Addressability -/

theorem available_ca {E : Env} (h : (E t).pmeths = (E t).meths) (ca ca' : Bool) (m : MethKind) : Available E t ca m ↔ Available E t ca' m := by
  have key : ∀ ca, Available E t ca m ↔ MethSet.Has (E t).meths m := fun ca =>
    ⟨fun h' => h'.elim id fun h' => h ▸ h'.2.2, .inl⟩
  rw [key, key]

theorem available_isPtr {E : Env} (h : IsPtr E t) (ca ca' : Bool) (m : MethKind) : Available E t ca m ↔ Available E t ca' m := by
  have key : ∀ ca, Available E t ca m ↔ MethSet.Has (E t).meths m := fun ca =>
    ⟨fun h' => h'.elim id fun h' => absurd h h'.2.1, .inl⟩
  rw [key, key]

theorem picks_addr {E : Env} {ca' : Bool} (h : ∀ m, Available E t ca m ↔ Available E t ca' m) {m : MethKind} (hp : Picks E t ca m) : Picks E t ca' m := by
  unfold Picks at *
  simpa only [h] using hp

theorem byKind_addr {E : Env} {ca' : Bool} (h : ∀ m, Available E t ca m ↔ Available E t ca' m) (hb : ByKind E t ca) : ByKind E t ca' := by
  rcases picks_or_byKind (ca := ca') hb.special with hb' | ⟨m, hm⟩
  · exact hb'
  · exact (picks_byKind (picks_addr (fun m => (h m).symm) hm) hb).elim

/-- Closes the rules that do not pass on whether the value is addressable. -/
macro "sameRule" hb:term "," hp:term : tactic => `(tactic| first
  | exact .methNil ‹_› ($hp ‹_›) ‹_› ‹_› | exact .meth ‹_› ($hp ‹_›) ‹_› ‹_›
  | exact .time ‹_› ‹_› ‹_› | exact .duration ‹_› ‹_› | exact .number0 ‹_› | exact .number ‹_› ‹_› ‹_› | exact .rawNil ‹_›
  | exact .raw ‹_› ‹_› ‹_› | exact .smap ‹_› ‹_› ‹_› ‹_› ‹_› ‹_›
  | exact .yes ($hb ‹_›) ‹_› | exact .no ($hb ‹_›) ‹_› | exact .int ($hb ‹_›) ‹_› ‹_› | exact .float ($hb ‹_›) ‹_› ‹_›
  | exact .str ($hb ‹_›) ‹_› ‹_› | exact .quotedStr ($hb ‹_›) ‹_› ‹_› | exact .ptrNil ($hb ‹_›) ‹_› | exact .ptr ($hb ‹_›) ‹_› ‹_›
  | exact .ifaceNil ($hb ‹_›) ‹_› | exact .iface ($hb ‹_›) ‹_› ‹_› | exact .bytesNil ($hb ‹_›) ‹_› ‹_›
  | exact .bytes ($hb ‹_›) ‹_› ‹_› ‹_› ‹_› ‹_› | exact .rawBytes ($hb ‹_›) ‹_› ‹_› ‹_› ‹_› ‹_›
  | exact .sliceNil ($hb ‹_›) ‹_› ‹_› ‹_› | exact .sliceNil0 ($hb ‹_›) ‹_› ‹_› ‹_› | exact .slice ($hb ‹_›) ‹_› ‹_› ‹_› ‹_›
  | exact .byteArray ($hb ‹_›) ‹_› ‹_› ‹_› ‹_› ‹_› | exact .mapNil ($hb ‹_›) ‹_› ‹_› ‹_› | exact .mapNil0 ($hb ‹_›) ‹_› ‹_› ‹_›
  | exact .map ($hb ‹_›) ‹_› ‹_› ‹_› ‹_› ‹_› ‹_›)

/-- Whether a pointer itself is addressable does not matter. -/
theorem writes_ptr_ca {ca' : Bool} (hp : IsPtr W.E t) (h : Writes W M o t ca q v b) : Writes W M o t ca' q v b := by
  have ha := available_isPtr hp ca ca'
  obtain ⟨e, hk⟩ := hp
  have hb : ByKind W.E t ca → ByKind W.E t ca' := byKind_addr ha
  have hp : ∀ {m}, Picks W.E t ca m → Picks W.E t ca' m := picks_addr ha
  cases h with
  | quoted _ h => rw [hk] at h; cases h
  | array _ h => rw [hk] at h; cases h
  | struct _ hst => exact absurd hst (not_struct hk (by simp))
  | _ => sameRule hb, hp

/-- If no type has methods that need an address, whether the value is addressable does not matter. -/
theorem writes_ca (G : GoTypes W.E W.ptrTo) {ca' : Bool} (ht : HasType W.E t v) (hn : NoPtrMeths W.E t v) (h : Writes W M o t ca q v b) :
    Writes W M o t ca' q v b := by
  have main : ∀ n t q v b, 2 * sizeOf v + (if q = true then 1 else 0) < n → HasType W.E t v → NoPtrMeths W.E t v → Writes W M o t ca q v b →
      Writes W M o t ca' q v b := by
    intro n
    induction n with
    | zero => intro _ _ _ _ h; exact absurd h (Nat.not_lt_zero _)
    | succ n ih =>
      intro t q v b hl ht hn h
      have ha := available_ca (hn t v .refl) ca ca'
      have hb : ByKind W.E t ca → ByKind W.E t ca' := byKind_addr ha
      have hp : ∀ {m}, Picks W.E t ca m → Picks W.E t ca' m := picks_addr ha
      cases h with
      | quoted h0 h1 h2 h3 => exact .quoted (hb h0) h1 h2 (ih _ _ _ _ (by simp at *; omega) ht hn h3)
      | @array _ _ _ _ vs bs h0 h1 h2 h3 h4 =>
        refine .array (hb h0) h1 h2 h3 fun i x c hi hj => ?_
        have hm := List.mem_of_getElem? hi
        have hpart : Part W.E t (.array vs) _ x := .array h1 hm
        have hs := List.sizeOf_lt_of_mem hm
        refine ih _ _ _ _ ?_ (part_type G ht hpart) (fun t' v' hw => hn t' v' (within_trans (.step .refl hpart) hw)) (h4 i x c hi hj)
        simp only [Val.array.sizeOf_spec] at hl
        simp at *
        omega
      | @struct _ _ _ l tried kept q' x b key c h0 h1 h2 h3 h4 h5 h6 h7 h8 h9 h10 h11 =>
        refine .struct (hb h0) h1 h2 h3 h4 h5 h6 (fun m hm => ?_) h8 h9 h10 h11
        obtain ⟨_, _, _, _, _, hpath, hprom, -⟩ := (h2.2 m).mp (h3.subset hm)
        have hw := fieldAt_type G (h5 m hm) h1 ht (promoted_type h1 hprom)
        have hs := fieldAt_size (h5 m hm)
        refine ih _ _ _ _ ?_ hw.1 (fun t' v' h' => hn t' v' (within_trans hw.2 h')) (h7 m hm)
        split <;> simp at hl <;> omega
      | _ => sameRule hb, hp
  exact main _ _ _ _ _ (Nat.lt_succ_self _) ht hn h

/-! ## Lists -/

theorem perm_lift {α β : Type} {f : α → β} {r s : List β} (h : r.Perm s) : ∀ {l : List α}, s = l.map f → ∃ l' : List α, l'.Perm l ∧ l'.map f = r := by
  induction h with
  | nil => intro l h; exact ⟨l, .refl _, h.symm⟩
  | cons x _ ih =>
    intro l h
    cases l with
    | nil => cases h
    | cons a l =>
      simp only [List.map_cons, List.cons.injEq] at h
      obtain ⟨l', h1, h2⟩ := ih h.2
      exact ⟨a :: l', h1.cons _, by rw [List.map_cons, h2, h.1]⟩
  | swap x y s =>
    intro l h
    match l, h with
    | a :: c :: l, h =>
      simp only [List.map_cons, List.cons.injEq] at h
      exact ⟨c :: a :: l, List.Perm.swap .., by simp [h]⟩
  | trans _ _ ih1 ih2 =>
    intro l h
    obtain ⟨l2, h1, h2⟩ := ih2 h
    obtain ⟨l1, h3, h4⟩ := ih1 h2.symm
    exact ⟨l1, h3.trans h1, h4⟩

/-- Something chosen for each element. -/
theorem choose_each {α β γ : Type} {R : α → β → γ → Prop} : ∀ {l : List α} {r : List β}, r.length = l.length →
    (∀ (i : Nat) x y, l[i]? = some x → r[i]? = some y → ∃ z, R x y z) →
    ∃ ts : List (γ × β), ts.map Prod.snd = r ∧ ∀ (i : Nat) x t, l[i]? = some x → ts[i]? = some t → R x t.2 t.1
  | [], [], _, _ => ⟨[], rfl, by simp⟩
  | [], _ :: _, h, _ => by simp at h
  | _ :: _, [], h, _ => by simp at h
  | x :: l, y :: r, hl, h => by
    obtain ⟨z, hz⟩ := h 0 x y rfl rfl
    obtain ⟨ts, h1, h2⟩ := choose_each (R := R) (l := l) (r := r) (by simpa using hl) fun i a c ha hc => h (i + 1) a c (by simpa using ha) (by simpa using hc)
    refine ⟨(z, y) :: ts, by simp [h1], fun i a t ha ht => ?_⟩
    cases i with
    | zero =>
      simp only [List.getElem?_cons_zero, Option.some.injEq] at ha ht
      subst ha
      subst ht
      exact hz
    | succ i => exact h2 i a t (by simpa using ha) (by simpa using ht)

theorem zip_fst_snd {α β : Type} : ∀ l : List (α × β), (l.map Prod.fst).zip (l.map Prod.snd) = l
  | [] => rfl
  | _ :: l => by simp [zip_fst_snd l]

/-! ## Keys -/

/-- The name of a key and its text. -/
def KeyPair (W : World) (M : MethV) (k : TId) (x : Val) (s z : Bytes) : Prop :=
  StdKey W M k x s ∧ (∃ r, Spelling true true s r ∧ z = b! "\"" ++ r ++ b! "\"") ∧ ((W.E k).kind ≠ .string → z = b! "\"" ++ s ++ b! "\"")

theorem default_time {x : GoTime} (hy : FromDec31 x) (h : TimeText W defaultEncOpts x b) : ∃ c, IsRFC3339 x true c ∧ b = b! "\"" ++ c ++ b! "\"" := by
  cases h with
  | unix h => exact absurd h (by decide)
  | rfc3339 _ h => exact absurd h (by decide)
  | nano _ _ h =>
    rcases h with ⟨-, h⟩ | ⟨h, -⟩
    · exact ⟨_, h, rfl⟩
    · exact absurd hy h
  | layout _ h => exact absurd h (by simp [show defaultEncOpts.layout = .rfc3339Nano from by decide])

theorem default_duration {d : Int64} (h : DurationText W defaultEncOpts d b) : IntLiteral b d.toInt := by
  cases h with
  | ns _ h => exact h
  | str h | neg h | us h | ms h | sec h | min h => exact absurd h (by decide)

theorem default_spelled {s : Bytes} (h : SpelledAs defaultEncOpts s b) : Spelling true true s b := by
  cases h with
  | raw h => exact absurd h (by decide)
  | escaped _ h => exact h

theorem default_copied {s : Bytes} (h : CopiedAs defaultEncOpts s b) : Squeezed true .out s b := by
  cases h with
  | verbatim h => exact absurd h (by decide)
  | compact _ h => exact h

theorem default_named {s : Bytes} (h : NamedAs defaultEncOpts s b) : Marked s b := by
  cases h with
  | raw h => exact absurd h (by decide)
  | marked _ h => exact h

theorem year_of_text {x : GoTime} {c : Bytes} (h : IsRFC3339 x true c) : HasYear x := by
  obtain ⟨y, mo, d, hh, mi, s, f, h1, h2, -⟩ := h
  exact ⟨y, mo, d, hh, mi, s, h2, h1⟩

theorem key_std {k : TId} {x : Val} {z : Bytes} (G : GoTypes W.E W.ptrTo) (ht : HasType W.E k x) (hkt : KeyType W.E k) (A : StdAlikeAt W M k x)
    (hf : KeyFine W defaultEncOpts k x) (h : KeyWrites W M defaultEncOpts k x z) : ∃ s, KeyPair W M k x s z := by
  cases h with
  | str hk hs => exact ⟨_, .str hk, ⟨_, default_spelled hs, rfl⟩, fun h => absurd hk h⟩
  | nilText hns htx hp => exact ⟨[], .nilText hns htx hp, ⟨[], .nil, rfl⟩, fun _ => rfl⟩
  | text hns htx hnil hw =>
    rcases hf.text hns htx with ⟨hs, hp, hif⟩ | ⟨hs, -⟩
    · rcases w_meth hs hp hw with ⟨rfl, -, -, h | h⟩ | ⟨rt, y, u, hr, hm⟩
      · exact absurd rfl (hnil h)
      · exact absurd rfl (hif h)
      · cases hm with
        | text hM => exact ⟨_, .text hns (by simp [hs]) htx hr hM, ⟨_, A.text _ _ _ _ _ hr hM, rfl⟩, fun _ => rfl⟩
    · obtain ⟨y, rfl, -, h1⟩ := w_time hs hw
      obtain ⟨c, h2, rfl⟩ := default_time (A.year _ rfl) h1
      exact ⟨_, .time hns hs htx ⟨h2, A.zone _ rfl⟩, ⟨_, rfc3339_clear h2, rfl⟩, fun _ => rfl⟩
  | quoted hns htx hw =>
    have int : ∀ {n}, (W.E k).kind = .int n → ∃ y, x = .int y := by
      intro n hk
      cases ht with
      | int => exact ⟨_, rfl⟩
      | time h => obtain ⟨fs, h, -⟩ := G.time _ h; rw [hk] at h; cases h
      | smap h => obtain ⟨fs, h, -⟩ := G.syncMap _ h; rw [hk] at h; cases h
      | _ => simp_all
    rcases hf.num hns htx with hb | ⟨hs, -⟩
    · obtain ⟨n, hk⟩ : ∃ n, (W.E k).kind = .int n := by
        rcases hkt with h | h | h
        · exact absurd h hns
        · exact h
        · rw [h] at htx; cases htx
      obtain ⟨y, rfl⟩ := int hk
      have := w_int hb hk hw
      exact ⟨_, .int hk htx this, ⟨_, intLiteral_clear this, rfl⟩, fun _ => rfl⟩
    · obtain ⟨d, rfl, h1⟩ := w_duration hs hw
      have := default_duration h1
      exact ⟨_, .int (G.duration _ hs) htx this, ⟨_, intLiteral_clear this, rfl⟩, fun _ => rfl⟩

theorem key_writes {k : TId} {x : Val} {s r : Bytes} (G : GoTypes W.E W.ptrTo) (ht : HasType W.E k x) (A : StdAlikeAt W M k x)
    (hf : KeyFine W defaultEncOpts k x) (h : StdKey W M k x s) (hr : Spelling true true s r) :
    KeyWrites W M defaultEncOpts k x (b! "\"" ++ r ++ b! "\"") ∧ ((W.E k).kind ≠ .string → r = s) := by
  cases h with
  | str hk => exact ⟨.str hk (.escaped (by decide) hr), fun h => absurd hk h⟩
  | nilText hns htx hp =>
    have := spelling_unique hr .nil
    subst this
    exact ⟨.nilText hns htx hp, fun _ => rfl⟩
  | text hns hnt htx hR hM =>
    have := spelling_unique hr (A.text _ _ _ _ _ hR hM)
    subst this
    refine ⟨?_, fun _ => rfl⟩
    rcases hf.text hns htx with ⟨hs, hp, hif⟩ | ⟨hs, -⟩
    · exact .text hns htx (fun hip hnil => by subst hnil; exact receives_nil' hip hp hR) (.meth hs hp hR (.text hM))
    · exact absurd hs hnt
  | time hns hs htx h1 =>
    have := spelling_unique hr (rfc3339_clear h1.1)
    subst this
    exact ⟨.text hns htx (fun _ => by simp) (.time hs (year_of_text h1.1) (.nano (by decide) (by decide) (.inl ⟨A.year _ rfl, h1.1⟩))), fun _ => rfl⟩
  | int hk htx h1 =>
    have := spelling_unique hr (intLiteral_clear h1)
    subst this
    refine ⟨?_, fun _ => rfl⟩
    have hns : (W.E k).kind ≠ .string := by simp [hk]
    rcases hf.num hns htx with hb | ⟨hs, -⟩
    · exact .quoted hns htx (.int hb hk h1)
    · have hk' := G.duration _ hs
      have : ∃ d, ‹IntVal› = .int64 d := by
        rename_i y
        cases ht with
        | int h => rw [hk'] at h; cases y <;> simp [IntVal.kind] at h; exact ⟨_, rfl⟩
        | iface _ h => cases h
      obtain ⟨d, rfl⟩ := this
      exact .quoted hns htx (.duration hs (.ns (by decide) h1))

theorem key_order {k e : TId} {kvs : List (Val × Val)} {kv kv' : Val × Val} {s s' z z' : Bytes} (A : StdAlikeAt W M t (.map kvs)) (hk : (W.E t).kind = .map k e)
    (hm : kv ∈ kvs) (hm' : kv' ∈ kvs) (h : KeyPair W M k kv.1 s z) (h' : KeyPair W M k kv'.1 s' z') : ByteLe (keyBody z) (keyBody z') ↔ ByteLe s s' := by
  obtain ⟨h1, ⟨r, h2, h3⟩, h4⟩ := h
  obtain ⟨h1', ⟨r', h2', h3'⟩, h4'⟩ := h'
  by_cases hs : (W.E k).kind = .string
  · have inv : ∀ {x s}, StdKey W M k x s → x = .str s := by
      intro x s h
      cases h with
      | str => rfl
      | nilText h | text h | time h => exact absurd hs h
      | int h => rw [hs] at h; cases h
    rw [h3, h3', keyBody_quotes, keyBody_quotes]
    exact A.order _ _ _ _ _ _ _ _ _ hk rfl hm hm' (inv h1) (inv h1') h2 h2'
  · rw [h4 hs, h4' hs, keyBody_quotes, keyBody_quotes]

/-! ## Values -/

/-- What `TagAlike` says of a value that is a field with the `string` option. -/
structure Tagged (W : World) (t : TId) (v : Val) : Prop where
  native : (W.E t).special = none
  elem : ∀ e, (W.E t).kind = .ptr e → (W.E e).special = none ∧ isBasicK (W.E e).kind = true
  plain : ∀ s, v = .str s → Spelling true true s s
  behind : ∀ s, v = .ptr (.str s) → Spelling true true s s

theorem tagged_of (h : TagAlike W t v) (hb : BasicOrPtr W.E t) : Tagged W t v := by
  refine ⟨h.native.1, fun e he => ⟨h.native.2 e he, ?_⟩, fun s hs => h.plain s (.inl hs), fun s hs => h.plain s (.inr hs)⟩
  rcases hb with hb | ⟨e', h1, -, h2⟩
  · rw [he] at hb; cases hb
  · rw [he] at h1; cases h1; exact h2

theorem tagged_elem {e : TId} {x : Val} (h : Tagged W t (.ptr x)) (hk : (W.E t).kind = .ptr e) (ht : HasType W.E e x) : Tagged W e x := by
  obtain ⟨h1, h2⟩ := h.elem e hk
  refine ⟨h1, fun e' he => (by rw [he] at h2; cases h2), fun s hs => h.behind s (by rw [hs]), fun s hs => ?_⟩
  subst hs
  exfalso
  cases ht with
  | ptr hp => rw [hp] at h2; cases h2
  | iface hp => rw [hp] at h2; cases h2

theorem left_out {m : MField} (hn : ¬ HasOpt m.decl (b! "omitnil")) : LeftOut defaultEncOpts v m ↔ StdLeftOut v m := by
  constructor
  · rintro (h | h | ⟨x, h1, ⟨h2, -⟩ | h2⟩)
    · exfalso
      rcases h with ⟨d, h, -⟩ | ⟨a, h, -⟩ <;> cases h
    · exact .inl h
    · exact absurd h2 hn
    · exact .inr ⟨x, h1, h2⟩
  · rintro (h | ⟨x, h1, h2⟩)
    · exact .inr (.inl h)
    · exact .inr (.inr ⟨x, h1, .inr h2⟩)

theorem alike_part {t' : TId} {v' : Val} (h : StdAlike W M t v) (hw : Within W.E t v t' v') : StdAlike W M t' v' :=
  fun t'' v'' h' => h t'' v'' (within_trans hw h')

theorem members_part (G : GoTypes W.E W.ptrTo) (ht : HasType W.E t v) (hst : IsStruct W.E t) {m : MField} {x : Val}
    (hc : ChosenField W.U.isLetter W.U.isDigit W.E t m) (hx : FieldAt v m.path x) : HasType W.E m.decl.typ x ∧ Within W.E t v m.decl.typ x := by
  obtain ⟨_, _, _, _, _, hpath, hprom, -⟩ := hc
  exact fieldAt_type G hx hst ht (promoted_type hst hprom)

/-- What jettison writes is what encoding/json writes. -/
theorem std_of_writes (G : GoTypes W.E W.ptrTo) (hsem : NoSemicolons W.E) (ht : HasType W.E t v) (ha : StdAlike W M t v)
    (hq : q = true → Tagged W t v) (h : Writes W M defaultEncOpts t ca q v b) : StdWrites W M t ca q v b := by
  have main : ∀ n t ca q v b, 2 * sizeOf v + (if q = true then 1 else 0) < n → HasType W.E t v → StdAlike W M t v → (q = true → Tagged W t v) →
      Writes W M defaultEncOpts t ca q v b → StdWrites W M t ca q v b := by
    intro n
    induction n with
    | zero => intro _ _ _ _ _ h; exact absurd h (Nat.not_lt_zero _)
    | succ n ih =>
      intro t ca q v b hl ht ha hq h
      have A := ha t v .refl
      have hb : ByKind W.E t ca → StdKind W.E t ca := (kind_std A.append).mp
      have hp : ∀ {m}, Picks W.E t ca m → StdPicks W.E t ca m := (picks_std A.append).mp
      have part : ∀ {t' v' ca' b'}, Part W.E t v t' v' → sizeOf v' < sizeOf v → Writes W M defaultEncOpts t' ca' false v' b' → StdWrites W M t' ca' false v' b' :=
        fun hpt hs hw => ih _ _ _ _ _ (by split at hl <;> simp at * <;> omega) (part_type G ht hpt) (alike_part ha (.step .refl hpt)) (by simp) hw
      have plain : (W.E t).special ≠ none → q = false := by
        intro hne
        cases q with
        | false => rfl
        | true => exact absurd (hq rfl).native hne
      cases h with
      | methNil hs h0 h1 h2 => exact .methNil hs (hp h0) h1 h2
      | meth hs h0 hr hm =>
        refine .meth hs (hp h0) hr ?_
        cases hm with
        | ctx => exact absurd h0.1 (noAppend_available A.append).2
        | app => exact absurd h0.1 (noAppend_available A.append).1
        | json h1 h2 h3 =>
          obtain ⟨j, hj⟩ := h2 (by decide)
          exact .json h1 hj (default_copied h3)
        | text h1 => exact .text h1 (A.text _ _ _ _ _ hr h1)
      | time hs _ h1 =>
        obtain ⟨c, h2, rfl⟩ := default_time (A.year _ rfl) h1
        exact .time hs ⟨h2, A.zone _ rfl⟩
      | duration hs h1 =>
        cases plain (by simp [hs])
        exact .duration hs (default_duration h1)
      | number0 hs =>
        cases plain (by simp [hs])
        exact .number0 hs
      | number hs h1 h2 =>
        cases plain (by simp [hs])
        exact .number hs h1 (h2 (by decide))
      | rawNil hs => exact .rawNil hs
      | raw hs h1 h2 =>
        obtain ⟨j, hj⟩ := A.raw _ _ hs rfl h1
        exact .raw hs h1 hj (default_copied h2)
      | smap hs => exact absurd hs A.smap
      | yes h0 h1 => exact .yes (hb h0) h1
      | no h0 h1 => exact .no (hb h0) h1
      | int h0 h1 h2 => exact .int (hb h0) h1 h2
      | float h0 h1 h2 => exact .float (hb h0) h1 h2
      | str h0 h1 h2 => exact .str (hb h0) h1 (default_spelled h2)
      | quoted h0 h1 h2 h3 => exact .quoted (hb h0) h1 h2 (ih _ _ _ _ _ (by simp at *; omega) ht ha (by simp) h3)
      | quotedStr h0 h1 h2 =>
        have hs := (hq rfl).plain _ rfl
        cases spelling_unique (default_spelled h2) hs
        have := StdWrites.quotedStr (M := M) (hb h0) h1 hs (spelling_requote hs)
        simpa using this
      | ptrNil h0 h1 => exact .ptrNil (hb h0) h1
      | ptr h0 h1 h2 =>
        have hpt := Part.ptr (v := ‹Val›) h1
        exact .ptr (hb h0) h1 (ih _ _ _ _ _ (by simp only [Val.ptr.sizeOf_spec] at hl; omega) (part_type G ht hpt) (alike_part ha (.step .refl hpt))
          (fun hq' => tagged_elem (hq hq') h1 (part_type G ht hpt)) h2)
      | ifaceNil h0 h1 => exact .ifaceNil (hb h0) h1
      | @iface _ _ k d x b h0 h1 h2 =>
        refine .iface (hb h0) h1 (part .iface (by simp only [Val.iface.sizeOf_spec]; omega) ?_)
        by_cases hpt : IsPtr W.E d
        · exact writes_ptr_ca hpt h2
        · cases hk : (W.E d).kind with
          | ptr e => exact absurd ⟨e, hk⟩ hpt
          | _ => rw [hk] at h2; exact h2
      | bytesNil h0 h1 h2 => exact .bytesNil (hb h0) h1
      | bytes h0 h1 h2 h3 h4 h5 => exact .bytes (hb h0) h1 h2 h4 h5
      | rawBytes _ _ _ h => exact absurd h (by decide)
      | sliceNil h0 h1 h2 => exact .bytesNil (hb h0) h1
      | sliceNil0 _ _ _ h => exact absurd h (by decide)
      | slice h0 h1 h2 h3 h4 =>
        refine .slice (hb h0) h1 h2 h3 fun i x c hi hj => part (.slice h1 (List.mem_of_getElem? hi)) ?_ (h4 i x c hi hj)
        have := List.sizeOf_lt_of_mem (List.mem_of_getElem? hi)
        simp only [Val.slice.sizeOf_spec]
        omega
      | byteArray _ _ _ h => exact absurd h (by decide)
      | array h0 h1 h2 h3 h4 =>
        refine .array (hb h0) h1 h3 fun i x c hi hj => part (.array h1 (List.mem_of_getElem? hi)) ?_ (h4 i x c hi hj)
        have := List.sizeOf_lt_of_mem (List.mem_of_getElem? hi)
        simp only [Val.array.sizeOf_spec]
        omega
      | mapNil h0 h1 h2 => exact .mapNil (hb h0) h1 h2
      | mapNil0 _ _ _ h => exact absurd h (by decide)
      | @map _ _ k e kvs ms ms' h0 h1 h2 h3 h4 h5 h6 =>
        obtain ⟨ts, e1, h7⟩ := choose_each (R := fun (kv : Val × Val) (m : Bytes × Bytes) s => KeyPair W M k kv.1 s m.1) h3 fun i kv m hi hj => by
          have hm := List.mem_of_getElem? hi
          have hpt : Part W.E t (.map kvs) k kv.1 := .key h1 hm
          exact key_std G (part_type G ht hpt) h2 (ha _ _ (.step .refl hpt)) (A.key _ _ _ _ h1 rfl hm) (h4 i kv m hi hj)
        have hlen : ts.length = kvs.length := by rw [← h3, ← e1, List.length_map]
        obtain ⟨ts', hperm, e2⟩ := perm_lift h6.1 e1.symm
        have hkey : ∀ x ∈ ts, ∃ kv ∈ kvs, KeyPair W M k kv.1 x.1 x.2.1 := by
          intro x hx
          obtain ⟨i, hi⟩ := List.mem_iff_getElem?.mp hx
          have hlt : i < kvs.length := hlen ▸ (List.getElem?_eq_some_iff.mp hi).1
          exact ⟨kvs[i], List.getElem_mem _, h7 i _ _ (List.getElem?_eq_getElem hlt) hi⟩
        have hget : ∀ {i : Nat} {m : Bytes × Bytes} {f : Bytes × Bytes × Bytes → Bytes × Bytes}, (ts.map f)[i]? = some m →
            ∃ x, ts[i]? = some x ∧ f x = m ∧ ms[i]? = some x.2 := by
          intro i m f h
          rw [List.getElem?_map, Option.map_eq_some_iff] at h
          obtain ⟨x, h, rfl⟩ := h
          exact ⟨x, h, rfl, by rw [← e1, List.getElem?_map, h]; rfl⟩
        have hobj : ms' = (ts'.map fun x => x.2.1).zip ((ts'.map fun x => (x.1, x.2.2)).map Prod.snd) := by
          rw [← e2]
          clear e2 hperm
          induction ts' with
          | nil => rfl
          | cons x l ihl => simp [ihl]
        rw [hobj]
        refine .map (ms := ts.map fun x => (x.1, x.2.2)) (hb h0) h1 h2 (by simp [hlen]) ?_ ?_ ⟨hperm.map _, ?_⟩ (by simp) ?_
        · intro i kv m hi hj
          obtain ⟨x, hx, rfl, -⟩ := hget hj
          exact (h7 i kv x hi hx).1
        · intro i kv m hi hj
          obtain ⟨x, hx, rfl, hx'⟩ := hget hj
          have hm := List.mem_of_getElem? hi
          refine part (.elem h1 hm) ?_ (h5 i kv x.2 hi hx')
          have := List.sizeOf_lt_of_mem hm
          have e : sizeOf kv = 1 + sizeOf kv.1 + sizeOf kv.2 := by cases kv; simp
          simp only [Val.map.sizeOf_spec]
          omega
        · have hs := (h6.2 (by decide)).1
          rw [← e2, List.pairwise_map] at hs
          rw [List.pairwise_map]
          refine hs.imp_of_mem ?_
          intro x y hx hy hxy
          obtain ⟨kv, k1, k2⟩ := hkey x (hperm.mem_iff.mp hx)
          obtain ⟨kv', k1', k2'⟩ := hkey y (hperm.mem_iff.mp hy)
          exact (key_order A h1 k1 k1' k2 k2').mp hxy
        · intro i m s hi hj
          rw [List.getElem?_map, Option.map_eq_some_iff] at hi hj
          obtain ⟨x, hx, rfl⟩ := hi
          obtain ⟨x', hx', rfl⟩ := hj
          rw [hx] at hx'
          cases hx'
          obtain ⟨kv, -, k2⟩ := hkey x (hperm.mem_iff.mp (List.mem_of_getElem? hx))
          exact k2.2.1
      | @struct _ _ _ l tried kept q' x b key c h0 h1 h2 h3 h4 h5 h6 h7 h8 h9 h10 h11 =>
        have hch : ∀ m ∈ l, ChosenField W.U.isLetter W.U.isDigit W.E t m := fun m hm => (h2.2 m).mp hm
        cases sublist_unique ((membersOf_nodup h2).sublist h3) h8 (List.Sublist.refl tried) fun m hm =>
          ⟨fun _ => hm, fun _ => (h9 m hm).mpr fun h => A.omitnil m (hch m (h3.subset hm)) h.1⟩
        cases lead_unique h11 (.none (.inr rfl))
        open Classical in
        have := StdWrites.struct (W := W) (M := M) (t := t) (ca := ca) (v := v) (l := l) (kept := tried) (q' := q') (x := x) (b := b) (key := key)
          (ca' := fun m => decide (ca = true ∨ ThroughPtr v m.path)) (hb h0) h1 ((membersOf_same (sameNames_std hsem)).mpr h2) h3
          (fun m hm => (h4 m hm).trans (not_congr (left_out (A.omitnil m (hch m hm))))) h5 h6 (fun m _ => by simp)
          (fun m hm => ?_) (fun m hm => default_named (h10 m hm))
        · simpa using this
        · have hc := hch m (h3.subset hm)
          have hw := members_part G ht h1 hc (h5 m hm)
          have hs := fieldAt_size (h5 m hm)
          refine ih _ _ _ _ _ (by simp at hl; split <;> omega) hw.1 (alike_part ha hw.2) (fun hq' => ?_) ?_
          · obtain ⟨g1, g2⟩ := (h6 m hm).mp hq'
            exact tagged_of (A.tag m _ hc (h5 m hm) g1 g2) g2
          · by_cases hcr : ThroughPtr v m.path
            · exact writes_ca G hw.1 (A.embed m _ hc (h5 m hm) hcr) (h7 m hm)
            · have e : decide (ca = true ∨ ThroughPtr v m.path) = ca := by simp [hcr]
              rw [e]
              exact h7 m hm
  exact main _ _ _ _ _ _ (Nat.lt_succ_self _) ht ha hq h

/-- What encoding/json writes is what jettison writes. -/
theorem writes_of_std (G : GoTypes W.E W.ptrTo) (hsem : NoSemicolons W.E) (h : StdWrites W M t ca q v b) : HasType W.E t v → StdAlike W M t v →
    (q = true → Tagged W t v) → Writes W M defaultEncOpts t ca q v b := by
  have kind : ∀ {t ca v}, StdAlike W M t v → StdKind W.E t ca → ByKind W.E t ca := fun ha => (kind_std (ha _ _ .refl).append).mpr
  have esc : ∀ {s r}, Spelling true true s r → SpelledAs defaultEncOpts s r := fun h => .escaped (by decide) h
  induction h with
  | methNil hs h0 h1 h2 => exact fun _ ha _ => .methNil hs ((picks_std (ha _ _ .refl).append).mpr h0) h1 h2
  | meth hs h0 hr hm =>
    intro _ ha _
    have A := ha _ _ .refl
    refine .meth hs ((picks_std A.append).mpr h0) hr ?_
    cases hm with
    | json h1 h2 h3 => exact .json h1 (fun _ => ⟨_, h2⟩) (.compact (by decide) h3)
    | text h1 h2 =>
      cases spelling_unique h2 (A.text _ _ _ _ _ hr h1)
      exact .text h1
  | time hs h1 => exact fun _ ha _ => .time hs (year_of_text h1.1) (.nano (by decide) (by decide) (.inl ⟨(ha _ _ .refl).year _ rfl, h1.1⟩))
  | duration hs h1 => exact fun _ _ _ => .duration hs (.ns (by decide) h1)
  | durationTag hs h1 => intro _ _ hq; have := (hq rfl).native; rw [hs] at this; cases this
  | number0 hs => exact fun _ _ _ => .number0 hs
  | number0Tag hs => intro _ _ hq; have := (hq rfl).native; rw [hs] at this; cases this
  | number hs h1 h2 => exact fun _ _ _ => .number hs h1 fun _ => h2
  | numberTag hs h1 => intro _ _ hq; have := (hq rfl).native; rw [hs] at this; cases this
  | rawNil hs => exact fun _ _ _ => .rawNil hs
  | raw hs h1 h2 h3 => exact fun _ _ _ => .raw hs h1 (.compact (by decide) h3)
  | smap hs => exact fun _ ha _ => absurd hs (ha _ _ .refl).smap
  | yes h0 h1 => exact fun _ ha _ => .yes (kind ha h0) h1
  | no h0 h1 => exact fun _ ha _ => .no (kind ha h0) h1
  | int h0 h1 h2 => exact fun _ ha _ => .int (kind ha h0) h1 h2
  | float h0 h1 h2 => exact fun _ ha _ => .float (kind ha h0) h1 h2
  | str h0 h1 h2 => exact fun _ ha _ => .str (kind ha h0) h1 (esc h2)
  | quoted h0 h1 h2 h3 ih => exact fun ht ha _ => .quoted (kind ha h0) h1 h2 (ih ht ha (by simp))
  | quotedStr h0 h1 h2 h3 =>
    intro _ ha hq
    have hs := (hq rfl).plain _ rfl
    cases spelling_unique h2 hs
    cases spelling_unique h3 (spelling_requote hs)
    have := Writes.quotedStr (M := M) (o := defaultEncOpts) (kind ha h0) h1 (esc hs)
    simpa using this
  | ptrNil h0 h1 => exact fun _ ha _ => .ptrNil (kind ha h0) h1
  | ptr h0 h1 h2 ih =>
    intro ht ha hq
    have hpt := Part.ptr (v := ‹Val›) h1
    exact .ptr (kind ha h0) h1 (ih (part_type G ht hpt) (alike_part ha (.step .refl hpt)) fun hq' => tagged_elem (hq hq') h1 (part_type G ht hpt))
  | ifaceNil h0 h1 => exact fun _ ha _ => .ifaceNil (kind ha h0) h1
  | @iface t ca k d x b h0 h1 h2 ih =>
    intro ht ha hq
    have hpt : Part W.E t (.iface d x) d x := .iface
    have hw := ih (part_type G ht hpt) (alike_part ha (.step .refl hpt)) (by simp)
    refine .iface (kind ha h0) h1 ?_
    by_cases hp : IsPtr W.E d
    · exact writes_ptr_ca hp hw
    · cases hk : (W.E d).kind with
      | ptr e => exact absurd ⟨e, hk⟩ hp
      | _ => exact hw
  | @bytesNil t ca e h0 h1 =>
    intro _ ha _
    by_cases he : ByteElem W.E e
    · exact .bytesNil (kind ha h0) h1 he
    · exact .sliceNil (kind ha h0) h1 he (by decide)
  | bytes h0 h1 h2 h3 h4 => exact fun _ ha _ => .bytes (kind ha h0) h1 h2 (by decide) h3 h4
  | @slice t ca e vs bs h0 h1 h2 h3 h4 ih =>
    intro ht ha _
    refine .slice (kind ha h0) h1 h2 h3 fun i x c hi hj => ?_
    have hpt : Part W.E t (.slice vs) e x := .slice h1 (List.mem_of_getElem? hi)
    exact ih i x c hi hj (part_type G ht hpt) (alike_part ha (.step .refl hpt)) (by simp)
  | @array t ca n e vs bs h0 h1 h3 h4 ih =>
    intro ht ha _
    refine .array (kind ha h0) h1 (fun _ => by decide) h3 fun i x c hi hj => ?_
    have hpt : Part W.E t (.array vs) e x := .array h1 (List.mem_of_getElem? hi)
    exact ih i x c hi hj (part_type G ht hpt) (alike_part ha (.step .refl hpt)) (by simp)
  | mapNil h0 h1 h2 => exact fun _ ha _ => .mapNil (kind ha h0) h1 h2 (by decide)
  | @map t ca k e kvs ms ms' names h0 h1 h2 h3 h4 h5 h6 h7 h8 ih =>
    intro ht ha _
    have A := ha _ _ .refl
    have total : ∀ s, ∃ r, Spelling true true s r := fun s => by
      obtain ⟨r, h, -⟩ := encodeString_spelled defaultEncOpts s
      exact ⟨r, default_spelled h⟩
    obtain ⟨sp, hsp⟩ := Classical.axiomOfChoice total
    have keys : ∀ {i : Nat} {kv : Val × Val} {m : Bytes × Bytes}, kvs[i]? = some kv → ms[i]? = some m →
        KeyWrites W M defaultEncOpts k kv.1 (b! "\"" ++ sp m.1 ++ b! "\"") ∧ KeyPair W M k kv.1 m.1 (b! "\"" ++ sp m.1 ++ b! "\"") := by
      intro i kv m hi hj
      have hm := List.mem_of_getElem? hi
      have hpt : Part W.E t (.map kvs) k kv.1 := .key h1 hm
      have hk := h4 i kv m hi hj
      have := key_writes G (part_type G ht hpt) (ha _ _ (.step .refl hpt)) (A.key _ _ _ _ h1 rfl hm) hk (hsp m.1)
      exact ⟨this.1, hk, ⟨_, hsp _, rfl⟩, fun h => by rw [this.2 h]⟩
    have hmem : ∀ m ∈ ms, ∃ kv ∈ kvs, KeyPair W M k kv.1 m.1 (b! "\"" ++ sp m.1 ++ b! "\"") := by
      intro m hm
      obtain ⟨i, hi⟩ := List.mem_iff_getElem?.mp hm
      have hlt : i < kvs.length := h3 ▸ (List.getElem?_eq_some_iff.mp hi).1
      exact ⟨kvs[i], List.getElem_mem _, (keys (List.getElem?_eq_getElem hlt) hi).2⟩
    have hget : ∀ {i : Nat} {m' : Bytes × Bytes}, (ms.map fun m => (b! "\"" ++ sp m.1 ++ b! "\"", m.2))[i]? = some m' →
        ∃ m, ms[i]? = some m ∧ m' = (b! "\"" ++ sp m.1 ++ b! "\"", m.2) := by
      intro i m' h
      rw [List.getElem?_map, Option.map_eq_some_iff] at h
      obtain ⟨m, h, e⟩ := h
      exact ⟨m, h, e.symm⟩
    have hnames : names = ms'.map fun m => b! "\"" ++ sp m.1 ++ b! "\"" := by
      refine List.ext_getElem? fun i => ?_
      rw [List.getElem?_map]
      cases hi : ms'[i]? with
      | none =>
        have : ms'.length ≤ i := List.getElem?_eq_none_iff.mp hi
        simp [List.getElem?_eq_none_iff.mpr (h7 ▸ this)]
      | some m =>
        have hlt : i < names.length := h7 ▸ (List.getElem?_eq_some_iff.mp hi).1
        obtain ⟨r, h9, h10⟩ := h8 i m _ hi (List.getElem?_eq_getElem hlt)
        rw [List.getElem?_eq_getElem hlt, h10, spelling_unique h9 (hsp m.1)]
        rfl
    have hobj : names.zip (ms'.map Prod.snd) = ms'.map fun m => (b! "\"" ++ sp m.1 ++ b! "\"", m.2) := by
      rw [hnames]
      clear h6 h7 h8 hnames
      induction ms' with
      | nil => rfl
      | cons x l ihl => rw [List.map_cons, List.map_cons, List.map_cons, List.zip_cons_cons, ihl]
    rw [hobj]
    refine .map (ms := ms.map fun m => (b! "\"" ++ sp m.1 ++ b! "\"", m.2)) (kind ha h0) h1 h2 (by simp [h3]) ?_ ?_ ⟨h6.1.map _, fun _ => ⟨?_, ?_⟩⟩
    · intro i kv m hi hj
      obtain ⟨m0, hm0, rfl⟩ := hget hj
      exact (keys hi hm0).1
    · intro i kv m hi hj
      obtain ⟨m0, hm0, rfl⟩ := hget hj
      have hpt : Part W.E t (.map kvs) e kv.2 := .elem h1 (List.mem_of_getElem? hi)
      exact ih i kv m0 hi hm0 (part_type G ht hpt) (alike_part ha (.step .refl hpt)) (by simp)
    · rw [List.pairwise_map]
      refine h6.2.imp_of_mem ?_
      intro x y hx hy hxy
      obtain ⟨kv, k1, k2⟩ := hmem x (h6.1.mem_iff.mp hx)
      obtain ⟨kv', k1', k2'⟩ := hmem y (h6.1.mem_iff.mp hy)
      exact (key_order A h1 k1 k1' k2 k2').mpr hxy
    · intro m hm
      obtain ⟨m0, -, rfl⟩ := List.mem_map.mp hm
      simp
  | @struct t ca v l kept q' ca' x b key h0 h1 h2 h3 h4 h5 h6 h7 h8 h9 ih =>
    intro ht ha _
    have A := ha _ _ .refl
    have hmo := (membersOf_same (sameNames_std hsem)).mp h2
    have hch : ∀ m ∈ l, ChosenField W.U.isLetter W.U.isDigit W.E t m := fun m hm => (hmo.2 m).mp hm
    have := Writes.struct (W := W) (M := M) (o := defaultEncOpts) (t := t) (ca := ca) (v := v) (l := l) (tried := kept) (kept := kept) (q' := q') (x := x)
      (b := b) (key := key) (kind ha h0) h1 hmo h3 (fun m hm => (h4 m hm).trans (not_congr (left_out (A.omitnil m (hch m hm))).symm)) h5 h6
      (fun m hm => ?_) (List.Sublist.refl _) (fun m hm => ⟨fun _ h => A.omitnil m (hch m (h3.subset hm)) h.1, fun _ => hm⟩)
      (fun m hm => .marked (by decide) (h9 m hm)) (.none (.inr rfl))
    · simpa using this
    · have hc := hch m (h3.subset hm)
      have hw := members_part G ht h1 hc (h5 m hm)
      have hd := ih m hm hw.1 (alike_part ha hw.2) fun hq' => by
        obtain ⟨g1, g2⟩ := (h6 m hm).mp hq'
        exact tagged_of (A.tag m _ hc (h5 m hm) g1 g2) g2
      by_cases hcr : ThroughPtr v m.path
      · exact writes_ca G hw.1 (A.embed m _ hc (h5 m hm) hcr) hd
      · have e : ca' m = ca := by
          have := h7 m hm
          rw [or_iff_left hcr] at this
          exact Bool.eq_iff_iff.mpr this
        rw [e] at hd
        exact hd

/-- Both write the same. -/
theorem writes_iff_std (G : GoTypes W.E W.ptrTo) (hsem : NoSemicolons W.E) (ht : HasType W.E t v) (ha : StdAlike W M t v) :
    Writes W M defaultEncOpts t (isPtrK (W.E t).kind) false v b ↔ StdWrites W M t false false v b := by
  have key : ∀ {ca ca'}, (ca = ca' ∨ IsPtr W.E t) → Writes W M defaultEncOpts t ca false v b → Writes W M defaultEncOpts t ca' false v b := by
    rintro ca ca' (rfl | h) hw
    · exact hw
    · exact writes_ptr_ca h hw
  have hp : isPtrK (W.E t).kind = false ∨ IsPtr W.E t := by
    cases hk : (W.E t).kind with
    | ptr e => exact .inr ⟨e, hk⟩
    | _ => exact .inl rfl
  exact ⟨fun h => std_of_writes G hsem ht ha (by simp) (key hp h), fun h => key (hp.imp Eq.symm id) (writes_of_std G hsem h ht ha (by simp))⟩

/-- C57, first half: with the default options, on values written alike, a call that returns without
error returns what encoding/json writes. Partial: the values excluded by `StdAlike`. -/
theorem C57_sound_partial {H : Heap} (D : WriteReady W H M) (hsem : NoSemicolons W.E) {w : Addr} (hx : ReprE W.E H.mem (some (t, w)) (.iface t v))
    (hf : TimesFine W t v) (ha : StdAlike W M t v) (n : Nat) :
    (∀ b, marshal W H n (some (t, w)) = .ret (some b) none → StdWrites W M t false false v b) ∧
    (∀ dst out, append W H n dst (some (t, w)) = .ret (some out) none → ∃ b, out = dst ++ b ∧ StdWrites W M t false false v b) := by
  have ht : HasType W.E t v := by
    cases repr_inIface hx with
    | val h => exact h
  have key := C56_bytes (opts := []) D hx hf rfl (n := n)
  refine ⟨fun b h => (writes_iff_std D.ready.types hsem ht ha).mp (key.1 b h), fun dst out h => ?_⟩
  obtain ⟨b, e, h⟩ := key.2 dst out h
  exact ⟨b, e, (writes_iff_std D.ready.types hsem ht ha).mp h⟩

/-- C57, second half: where encoding/json writes a text, a call that ends returns it. -/
theorem C57_complete_partial {H : Heap} (D : FaultReady W H M) (DW : WriteReady W H M) (hP : PathFree M) (hsem : NoSemicolons W.E) {w : Addr}
    (hx : ReprE W.E H.mem (some (t, w)) (.iface t v)) (hf : TimesFine W t v) (ha : StdAlike W M t v)
    (hd : KeysTold W M defaultEncOpts t v) (h : StdWrites W M t false false v b) (n : Nat) (dst : Bytes) (hn : marshal W H n (some (t, w)) ≠ .nofuel) :
    marshal W H n (some (t, w)) = .ret (some b) none ∧ append W H n dst (some (t, w)) = .ret (some (dst ++ b)) none := by
  have ht : HasType W.E t v := by
    cases repr_inIface hx with
    | val h => exact h
  exact (C56_complete (opts := []) D DW hP hx hf rfl ((writes_iff_std D.ready.types hsem ht ha).mpr h) n dst hn).2 (by decide) hd

/-- C57 for finite values: `Marshal` returns exactly what encoding/json writes, and returns an
error or panics exactly where encoding/json has nothing to write. -/
theorem C57_iff_partial {g n : Nat} {S : List TId} {c : Call} (hc : FiniteCall W g n c S M) (D : FaultReady (c.world W) c.heap M)
    (DW : WriteReady (c.world W) c.heap M) (hP : PathFree M) (hsem : NoSemicolons W.E) {w : Addr} (hv : c.value = some (t, w))
    (hx : ReprE W.E c.heap.mem (some (t, w)) (.iface t v)) (hf : TimesFine (c.world W) t v) (ha : StdAlike (c.world W) M t v)
    (hd : KeysTold (c.world W) M defaultEncOpts t v) :
    marshal (c.world W) c.heap n (some (t, w)) = .ret (some b) none ↔ StdWrites (c.world W) M t false false v b := by
  have ht : HasType W.E t v := by
    cases repr_inIface hx with
    | val h => exact h
  exact (C56_iff (opts := []) hc D DW hP hv hx rfl hf (by decide) hd).trans (writes_iff_std D.ready.types hsem ht ha)

end Jettison.Props
