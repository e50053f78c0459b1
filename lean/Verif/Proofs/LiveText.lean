import Verif.Spec.LiveText
import Verif.Proofs.LiveSafe
import Verif.Props.Document
import Verif.Props.StringTag

/-! # Instructions append JSON, also when the data changes -/

namespace Jettison.Proofs
open Jettison Jettison.Model Jettison.Spec Jettison.Props

variable {σ : Type} {W : World} {P : Around σ} {T : σ → Places} {o : EncOpts} {lim : Nat}

/-- What is appended if the statement succeeds. -/
def Yields (c : Act σ) (s : σ) (Q : Bytes → Prop) : Prop := ∀ b, (c s).1 = .ok b → Q b

def JsonOut (dst b : Bytes) : Prop := ∃ j out, b = dst ++ out ∧ CompactText j out
def NumOut (dst b : Bytes) : Prop := ∃ out, b = dst ++ out ∧ IsNumber out
def StrOut (dst b : Bytes) : Prop := ∃ kb c, b = dst ++ strToken kb ∧ unescape kb = some c
def PlainOut (dst b : Bytes) : Prop := ∃ out, b = dst ++ out ∧ ∀ c ∈ out, PlainByte c

theorem num_json {dst b : Bytes} (h : NumOut dst b) : JsonOut dst b := by
  obtain ⟨out, h1, h2⟩ := h; exact ⟨_, out, h1, Gr.num _ h2⟩

theorem num_plain {dst b : Bytes} (h : NumOut dst b) : PlainOut dst b := by
  obtain ⟨out, h1, h2⟩ := h; exact ⟨out, h1, number_plain h2⟩

theorem str_json {dst b : Bytes} (h : StrOut dst b) : JsonOut dst b := by
  obtain ⟨kb, c, h1, h2⟩ := h; exact ⟨_, _, h1, Gr.str _ _ h2⟩

theorem null_json (dst : Bytes) : JsonOut dst (dst ++ b! "null") := ⟨_, _, rfl, Gr.null⟩

theorem plain_str {dst b : Bytes} (h : PlainOut (dst ++ b! "\"") b) : StrOut dst (b ++ b! "\"") := by
  obtain ⟨out, rfl, h2⟩ := h
  exact ⟨out, out, by simp [strToken], unescape_plain _ h2⟩

theorem yields_imp {c : Act σ} {s : σ} {Q Q' : Bytes → Prop} (h : Yields c s Q) (hq : ∀ b, Q b → Q' b) : Yields c s Q' := fun b hb => hq b (h b hb)

theorem yields_ret {r : Res} {s : σ} {Q : Bytes → Prop} (h : ∀ b, r = .ok b → Q b) : Yields (.ret r) s Q := h

theorem yields_ok {b : Bytes} {s : σ} {Q : Bytes → Prop} (h : Q b) : Yields (.ret (.ok b)) s Q := by
  intro b' hb; cases hb; exact h

theorem yields_nofuel {s : σ} {Q : Bytes → Prop} : Yields (.ret .nofuel) s Q := by intro b hb; cases hb

theorem yields_read {α : Type} {x : σ → Option α} {f : α → Act σ} {s : σ} {Q : Bytes → Prop} (h : ∀ a, x s = some a → Yields (f a) s Q) :
    Yields (withReadL x f) s Q := by
  intro b hb
  unfold withReadL at hb
  cases hx : x s with
  | none => rw [hx] at hb; cases hb
  | some a => rw [hx] at hb; exact h a hx b hb

theorem yields_andThen {c : Act σ} {f : Bytes → Act σ} {s : σ} {Q Q' : Bytes → Prop} (hs : Safe T c s) (h : Yields c s Q)
    (hf : ∀ b s1, (T s).Le (T s1) → Q b → Yields (f b) s1 Q') : Yields (c.andThen f) s Q' := by
  intro b hb
  unfold Act.andThen at hb
  have hle := hs.2
  cases hc : c s with
  | mk r s1 =>
    rw [hc] at hb hle
    cases r with
    | ok b1 => exact hf b1 s1 hle (h b1 (by rw [hc])) b hb
    | _ => cases hb

/-! ## Entries -/

/-- The texts are those of members. -/
def Membs (ts : List Bytes) : Prop := ∃ ms, All2 MemberIs ts ms

theorem membs_nil : Membs [] := ⟨[], .nil⟩
theorem membs_cons {t : Bytes} {ts : List Bytes} {m : Bytes × Json} (h : MemberIs t m) (h' : Membs ts) : Membs (t :: ts) := by
  obtain ⟨ms, hm⟩ := h'; exact ⟨m :: ms, .cons h hm⟩

theorem membs_of {ts : List Bytes} (h : ∀ t ∈ ts, ∃ m, MemberIs t m) : Membs ts := by
  induction ts with
  | nil => exact membs_nil
  | cons t ts ih =>
    obtain ⟨m, hm⟩ := h t (by simp)
    exact membs_cons hm (ih fun t ht => h t (by simp [ht]))

theorem member_of {dst b b' : Bytes} (h : StrOut dst b) (h' : JsonOut (b ++ b! ":") b') : ∃ t m, b' = dst ++ t ∧ MemberIs t m := by
  obtain ⟨kb, c, rfl, h2⟩ := h
  obtain ⟨j, out, rfl, h3⟩ := h'
  exact ⟨strToken kb ++ (c! ':' :: out), (c, j), by simp, kb, out, rfl, h2, h3⟩

theorem yields_unsorted {α : Type} {next : σ → Nat → Option α} {kf vf : Nat → α → Bytes → Act σ} {A : σ → α → Prop} (s0 : σ)
    (hn : ∀ s n a, (T s0).Le (T s) → next s n = some a → A s a)
    (sk : ∀ s a n dst, (T s0).Le (T s) → A s a → Safe T (kf n a dst) s)
    (sv : ∀ s s' a n dst, (T s0).Le (T s) → A s a → (T s).Le (T s') → Safe T (vf n a dst) s')
    (hk : ∀ s a n dst, (T s0).Le (T s) → A s a → Yields (kf n a dst) s (StrOut dst))
    (hv : ∀ s s' a n dst, (T s0).Le (T s) → A s a → (T s).Le (T s') → Yields (vf n a dst) s' (JsonOut dst)) :
    ∀ (lim n : Nat) (dst : Bytes) (s : σ), (T s0).Le (T s) → Yields (unsortedLoopL next kf vf lim n dst) s
      (fun b => ∃ ts, Membs ts ∧ b = dst ++ if n = 0 then commas ts else (ts.map (b! "," ++ ·)).flatten)
  | 0, _, _, _, _ => yields_nofuel
  | lim + 1, n, dst, s, h0 => by
    intro b hb
    simp only [unsortedLoopL] at hb
    cases hx : next s n with
    | none =>
      rw [hx] at hb
      cases hb
      exact ⟨[], membs_nil, by simp [commas]⟩
    | some a =>
      rw [hx] at hb
      have ha := hn s n a h0 hx
      refine yields_andThen (Q' := fun b => ∃ ts, Membs ts ∧ b = dst ++ if n = 0 then commas ts else (ts.map (b! "," ++ ·)).flatten)
        (sk s a n _ h0 ha) (hk s a n _ h0 ha) (fun b1 s1 h1 q1 => yields_andThen (sv s s1 a n _ h0 ha h1) (hv s s1 a n _ h0 ha h1)
        fun b2 s2 h2 q2 => yields_imp (yields_unsorted s0 hn sk sv hk hv lim (n + 1) b2 s2 (le_trans h0 (le_trans h1 h2))) ?_) b hb
      rintro b3 ⟨ts, h3, rfl⟩
      obtain ⟨t, m, rfl, hm⟩ := member_of q1 q2
      refine ⟨t :: ts, membs_cons hm h3, ?_⟩
      by_cases hz : n = 0
      · simp [hz, commas_cons]
      · simp [hz]

theorem yields_sorted {α : Type} {next : σ → Nat → Option α} {kf vf : Nat → α → Bytes → Act σ} {A : σ → α → Prop} (s0 : σ)
    (hn : ∀ s n a, (T s0).Le (T s) → next s n = some a → A s a)
    (sk : ∀ s a n dst, (T s0).Le (T s) → A s a → Safe T (kf n a dst) s)
    (sv : ∀ s s' a n dst, (T s0).Le (T s) → A s a → (T s).Le (T s') → Safe T (vf n a dst) s')
    (hk : ∀ s a n dst, (T s0).Le (T s) → A s a → Yields (kf n a dst) s (StrOut dst))
    (hv : ∀ s s' a n dst, (T s0).Le (T s) → A s a → (T s).Le (T s') → Yields (vf n a dst) s' (JsonOut dst)) :
    ∀ (lim n : Nat) (buf : Bytes) (mel : List (Bytes × Bytes)) (s : σ), (T s0).Le (T s) → (∀ kv ∈ mel, ∃ m, MemberIs kv.2 m) →
      ∀ mel', (sortedLoopL next kf vf lim n buf mel s).1 = .ok mel' → ∀ kv ∈ mel', ∃ m, MemberIs kv.2 m
  | 0, _, _, _, _, _, _, _, h => by simp [sortedLoopL] at h
  | lim + 1, n, buf, mel, s, h0, hmel, mel', h => by
    simp only [sortedLoopL] at h
    cases hx : next s n with
    | none => rw [hx] at h; cases h; exact hmel
    | some a =>
      rw [hx] at h
      have ha := hn s n a h0 hx
      have h1 := (sk s a n buf h0 ha).2
      have q1 := hk s a n buf h0 ha
      simp only at h
      cases hc : kf n a buf s with
      | mk r s1 =>
        rw [hc] at h h1
        cases r with
        | ok buf1 =>
          simp only at h
          split at h
          · cases h
          · have h2 := (sv s s1 a n (buf1 ++ b! ":") h0 ha h1).2
            have q2 := hv s s1 a n (buf1 ++ b! ":") h0 ha h1
            cases hc' : vf n a (buf1 ++ b! ":") s1 with
            | mk r s2 =>
              rw [hc'] at h h2
              cases r with
              | ok buf2 =>
                simp only at h
                split at h
                · cases h
                · refine yields_sorted s0 hn sk sv hk hv lim (n + 1) _ _ s2 (le_trans h0 (le_trans h1 h2)) ?_ mel' h
                  obtain ⟨t, m, hb, hm⟩ := member_of (q1 buf1 (by rw [hc])) (q2 buf2 (by rw [hc']))
                  intro kv hkv
                  rcases List.mem_append.mp hkv with hkv | hkv
                  · exact hmel kv hkv
                  · rw [List.mem_singleton] at hkv
                    subst hkv
                    exact ⟨m, by simpa [hb] using hm⟩
              | _ => cases h
        | _ => cases h

theorem live_sorted_stop {α : Type} {next : σ → Nat → Option α} {kf vf : Nat → α → Bytes → Act σ} :
    ∀ (lim n : Nat) (buf : Bytes) (mel : List (Bytes × Bytes)) (s : σ) (b : Bytes), (sortedLoopL next kf vf lim n buf mel s).1 ≠ .stop (.ok b)
  | 0, _, _, _, _, _ => by simp [sortedLoopL]
  | lim + 1, n, buf, mel, s, b => by
    simp only [sortedLoopL]
    cases next s n with
    | none => simp
    | some a =>
      simp only
      cases kf n a buf s with
      | mk r s1 =>
        cases r with
        | ok buf1 =>
          simp only
          split
          · simp
          · cases vf n a (buf1 ++ b! ":") s1 with
            | mk r s2 =>
              cases r with
              | ok buf2 =>
                simp only
                split
                · simp
                · exact live_sorted_stop _ _ _ _ _ _
              | _ => simp
        | _ => simp

theorem yields_entries (hsort : SortOk W.sort) {α : Type} {next : σ → Nat → Option α} {kf vf : Nat → α → Bytes → Act σ} {A : σ → α → Prop} (s : σ)
    (hn : ∀ s' n a, (T s).Le (T s') → next s' n = some a → A s' a)
    (sk : ∀ s' a n dst, (T s).Le (T s') → A s' a → Safe T (kf n a dst) s')
    (sv : ∀ s' s'' a n dst, (T s).Le (T s') → A s' a → (T s').Le (T s'') → Safe T (vf n a dst) s'')
    (hk : ∀ s' a n dst, (T s).Le (T s') → A s' a → Yields (kf n a dst) s' (StrOut dst))
    (hv : ∀ s' s'' a n dst, (T s).Le (T s') → A s' a → (T s').Le (T s'') → Yields (vf n a dst) s'' (JsonOut dst)) (dst : Bytes) :
    Yields (encodeEntriesL W o lim next kf vf dst) s (JsonOut dst) := by
  have fin : ∀ b, (∃ ts, Membs ts ∧ b = (dst ++ b! "{") ++ commas ts) → JsonOut dst (b ++ b! "}") := by
    rintro b ⟨ts, ⟨ms, hms⟩, rfl⟩
    exact ⟨.obj ms, b! "{" ++ commas ts ++ b! "}", by simp, compact_obj hms⟩
  intro b hb
  unfold encodeEntriesL Act.andThen at hb
  cases hc : (if bmHas o.flags .unsortedMap then unsortedLoopL next kf vf lim 0 (dst ++ b! "{") else encodeSortedL W.sort next kf vf lim (dst ++ b! "{")) s with
  | mk r s1 =>
    rw [hc] at hb
    cases r with
    | ok b1 =>
      cases hb
      refine fin b1 ?_
      split at hc
      · have := yields_unsorted s hn sk sv hk hv lim 0 (dst ++ b! "{") s (le_refl _) b1 (by rw [hc])
        simpa using this
      · unfold encodeSortedL at hc
        cases hm : sortedLoopL next kf vf lim 0 [] [] s with
        | mk c s2 =>
          rw [hm] at hc
          cases c with
          | ok mel =>
            simp only [Prod.mk.injEq, Res.ok.injEq] at hc
            have := yields_sorted s hn sk sv hk hv lim 0 [] [] s (le_refl _) (by simp) mel (by rw [hm])
            refine ⟨(W.sort kvLess mel).map Prod.snd, membs_of ?_, ?_⟩
            · intro t ht
              obtain ⟨kv, hkv, rfl⟩ := List.mem_map.mp ht
              exact this kv ((hsort.perm kvLess mel).mem_iff.mp hkv)
            · rw [← hc.1, joinEntries_commas]; simp
          | stop r =>
            have := live_sorted_stop (next := next) (kf := kf) (vf := vf) lim 0 [] [] s
            rw [hm] at this
            cases r with
            | ok b => exact absurd rfl (this b)
            | _ => simp at hc
    | _ => cases hb

/-! ## Basic kinds -/

theorem yields_int {k : IntK} {p : Loc} {s : σ} (dst : Bytes) :
    Yields (withReadL (fun s => readInt (P.mem s) k p) fun v => .ret (.ok (encodeIntVal v dst))) s (NumOut dst) := by
  refine yields_read fun v _ => yields_ok ?_
  obtain ⟨out, h1, h2⟩ := C08_integer_literal v dst
  exact ⟨out, h1, intLiteral_isNumber h2⟩

theorem yields_float (hl : FormatContract W.fmt) {w : FWidth} {p : Loc} {s : σ} (dst : Bytes) :
    Yields (withReadL (fun s => readFloat (P.mem s) w p) fun b => .ret (exceptRes (appendFloat W.fmt dst w b) (.unsupportedValue w b) dst)) s (NumOut dst) := by
  refine yields_read fun x _ => yields_ret fun b hb => ?_
  obtain ⟨out, h1, rfl⟩ := pre_res_ok (pre_float (contract_long hl) w x _) hb
  cases hf : appendFloat W.fmt [] w x with
  | error e => rw [hf] at h1; cases h1
  | ok b' =>
    rw [hf] at h1; cases h1
    exact ⟨_, rfl, (compact_num (float_tree hl hf).1).2⟩

theorem bool_out (b : Bool) (dst : Bytes) : JsonOut dst (encodeBool b dst) ∧ PlainOut dst (encodeBool b dst) := by
  cases b
  · exact ⟨⟨_, _, rfl, Gr.false⟩, b! "false", rfl, by decide⟩
  · exact ⟨⟨_, _, rfl, Gr.true⟩, b! "true", rfl, by decide⟩

theorem yields_bool {p : Loc} {s : σ} (dst : Bytes) :
    Yields (withReadL (fun s => readBool (P.mem s) p) fun b => .ret (.ok (encodeBool b dst))) s (fun b => JsonOut dst b ∧ PlainOut dst b) :=
  yields_read fun v _ => yields_ok (bool_out v dst)

theorem escaped_out (he : bmHas o.flags .noStringEscaping = false) (x dst : Bytes) : StrOut dst (appendEscapedBytes (dst ++ b! "\"") x o.esc ++ b! "\"") := by
  obtain ⟨body, c, h1, h2, -⟩ := escaped_text he x
  exact ⟨body, c, by simp [h1, strToken], h2⟩

theorem yields_string (he : bmHas o.flags .noStringEscaping = false) {p : Loc} {s : σ} (dst : Bytes) :
    Yields (withReadL (fun s => readStr (P.mem s) p) fun x => .ret (.ok (encodeString x dst o.esc))) s (StrOut dst) :=
  yields_read fun x _ => yields_ok (escaped_out he x dst)

theorem yields_quotedString (he : bmHas o.flags .noStringEscaping = false) {p : Loc} {s : σ} (dst : Bytes) :
    Yields (withReadL (fun s => readStr (P.mem s) p) fun x => .ret (.ok (encodeQuotedString x dst o.esc))) s (StrOut dst) := by
  refine yields_read fun x _ => yields_ok ?_
  obtain ⟨body, c, h1, h2, -⟩ := escaped_text he x
  exact ⟨_, _, by simp [encodeQuotedString, h1, strToken], unescape_quoted h2⟩

/-- The instruction of a basic kind, also with the `string` option. -/
theorem yields_basic (D : Decent W P T o) (hl : FormatContract W.fmt) {k : Kind} {q : Bool} {i : Instr} (hi : newBasicTypeInstr k q = some i) (n : Nat)
    (path : Path) (p : Loc) (s : σ) (dst : Bytes) : Yields (runL W P o lim n path i p dst) s (JsonOut dst) := by
  cases n with
  | zero => exact yields_nofuel
  | succ n =>
    have quoted : ∀ i, (∀ dst, Yields (runL W P o lim n path i p dst) s (PlainOut dst)) →
        Yields (runL W P o lim (n + 1) path (.quoted i) p dst) s (JsonOut dst) := by
      intro i h b hb
      simp only [runL, execL, Act.andThen] at hb
      cases hc : runL W P o lim n path i p (dst ++ b! "\"") s with
      | mk r s1 =>
        rw [hc] at hb
        cases r with
        | ok b1 => cases hb; exact str_json (plain_str (h _ b1 (by rw [hc])))
        | _ => cases hb
    have lift : ∀ i (Q : Bytes → Bytes → Prop), (∀ m dst, Yields (runL W P o lim (m + 1) path i p dst) s (Q dst)) → ∀ m dst, Yields (runL W P o lim m path i p dst) s (Q dst) := by
      intro i Q h m dst
      cases m with
      | zero => exact yields_nofuel
      | succ m => exact h m dst
    cases k <;> simp only [newBasicTypeInstr, Option.some.injEq, reduceCtorEq] at hi
    · cases q <;> simp at hi <;> subst hi
      · exact yields_imp (yields_bool dst) fun b h => h.1
      · refine quoted _ (lift _ PlainOut ?_ n); exact fun m dst => yields_imp (yields_bool dst) fun b h => h.2
    · cases q <;> simp at hi <;> subst hi
      · exact yields_imp (yields_int dst) fun b h => num_json h
      · refine quoted _ (lift _ PlainOut ?_ n); exact fun m dst => yields_imp (yields_int dst) fun b h => num_plain h
    · cases q <;> simp at hi <;> subst hi
      · exact yields_imp (yields_float hl dst) fun b h => num_json h
      · refine quoted _ (lift _ PlainOut ?_ n); exact fun m dst => yields_imp (yields_float hl dst) fun b h => num_plain h
    · cases q <;> simp at hi <;> subst hi
      · exact yields_imp (yields_string D.escaping dst) fun b h => str_json h
      · exact yields_imp (yields_quotedString D.escaping dst) fun b h => str_json h

/-! ## Methods -/

theorem yields_call (D : Decent W P T o) {k : MethKind} {t rt : TId} {w : Loc} {dst : Bytes} {s : σ} (h : Called W.E (P.mem s) (T s) rt w) :
    Yields (callMethL W P o k t rt w dst) s (fun b => JsonOut dst b ∧ (k = .text → StrOut dst b)) := by
  intro b hb
  simp only [callMethL, callMeth] at hb
  cases k with
  | appendCtx =>
    simp only at hb
    split at hb <;> cases hb
    next hm => exact ⟨D.append s _ _ _ _ _ _ (.inr rfl) h hm, by simp⟩
  | append =>
    simp only at hb
    split at hb <;> cases hb
    next hm => exact ⟨D.append s _ _ _ _ _ _ (.inl rfl) h hm, by simp⟩
  | json =>
    simp only at hb
    split at hb
    · next x hm =>
      refine ⟨?_, by simp⟩
      unfold relayJSON at hb
      split at hb
      · next hn =>
        cases hb
        obtain ⟨j, hj⟩ := D.json s _ _ _ _ hn h hm
        exact ⟨j, _, rfl, hj⟩
      · split at hb
        · cases hb
        · next hv =>
          cases hb
          obtain ⟨j, hj⟩ := (D.valid x).mp (by simpa using hv)
          obtain ⟨out, h1, h2⟩ := C14_compact_value dst x (!bmHas o.flags .noHTMLEscaping) j hj
          exact ⟨j, out, h1, h2⟩
    · cases hb
    · cases hb
  | text =>
    simp only at hb
    split at hb <;> cases hb
    next x hm =>
      obtain ⟨c, hc⟩ := D.text s _ _ _ _ h hm
      have : StrOut dst (dst ++ b! "\"" ++ x ++ b! "\"") := ⟨x, c, by simp [strToken], hc⟩
      exact ⟨str_json this, fun _ => this⟩

/-- A method is called, or `null` stands for a nil pointer or interface. -/
def MethOut (W : World) (P : Around σ) (s : σ) (t : TId) (p : Loc) (m : MethKind) (dst b : Bytes) : Prop :=
  (JsonOut dst b ∧ (m = .text → StrOut dst b)) ∨
    (b = dst ++ b! "null" ∧ (IsIface W.E t ∨ (IsPtr W.E t ∧ (P.mem s).at p = some (.word 0))))

theorem yields_marshaler (R : Grounds W) (C : Careful W.E P T) (D : Decent W P T o) {t : TId} {ca : Bool} {m : MethKind} {hp : Bool} {p : Loc} {s : σ}
    (hty : Typed W.E t ca (.marshaler m t hp)) (hv : (T s).val t p)
    (hca : ca = true → isPtrK (W.E t).kind = true ∨ InHeap p) (dst : Bytes) : Yields (encodeMarshalerL W P o m t hp p dst) s (MethOut W P s t p m dst) := by
  have hl := (C.sane s).val _ _ hv
  cases hty with
  | marshP hn hm hc hk hs =>
    have hin : InHeap p := by rcases hca hc with h | h; · simp [hk] at h
                              exact h
    obtain ⟨a, ha, rfl⟩ := hin
    have hpk := R.types.ptrTo_kind t
    have hne : Loc.heap a ≠ .heap 0 := by simpa using ha
    simp only [encodeMarshalerL, Bool.not_true, Bool.false_eq_true, if_false, hne, invokeMethL]
    refine yields_read fun x hx => ?_
    simp [receiver, hpk, ifaceK] at hx
    subst hx
    exact yields_imp (yields_call D (.direct (.ptr hpk) (.ptr hpk (by simp [Mem.at]) fun _ => hv))) fun b h => .inl h
  | marsh hhas hs =>
    have hany := has_any hhas
    simp only [encodeMarshalerL, Bool.not_false, if_true]
    cases hkk : (W.E t).kind with
    | ptr e =>
      obtain ⟨a, hat, ha⟩ := laid_ptr R.types hkk hl
      simp only [isPtrK, Bool.true_or, if_true]
      refine yields_read fun x hx => ?_
      simp [firstWordNil, hat] at hx
      split
      · next h0 =>
        rw [h0, beq_iff_eq] at hx
        exact yields_ok (.inr ⟨rfl, .inr ⟨⟨e, hkk⟩, by rw [hat, hx]⟩⟩)
      · refine yields_read fun y hy => ?_
        simp [receiver, hkk, ifaceK, isPtrK, readWord, hat] at hy
        subst hy
        exact yields_imp (yields_call D (.direct (.ptr hkk) (.ptr hkk (by simp [Mem.at]) ha))) fun b h => .inl h
    | iface n =>
      obtain ⟨x, hat, hx⟩ := laid_iface R.types hkk hl
      have hrd : (if n = 0 then readEface (P.mem s) p else readIface (P.mem s) p) = some x := by
        rcases hat with ⟨h0, h⟩ | ⟨h0, h⟩ <;> simp [readEface, readIface, h, h0]
      simp only [isPtrK, ifaceK, Option.isSome_some, Bool.or_true, if_true]
      refine yields_read fun y hy => ?_
      split
      · exact yields_ok (.inr ⟨rfl, .inl ⟨n, hkk⟩⟩)
      · refine yields_read fun z hz => ?_
        simp only [receiver, hkk, ifaceK, hrd] at hz
        cases x with
        | none => simp at hz; subst hz; exact yields_ret (by simp)
        | some x =>
          obtain ⟨d, w⟩ := x
          simp at hz
          subst hz
          exact yields_imp (yields_call D (held_called C hx)) fun b h => .inl h
    | _ =>
      have hnd : ¬ Direct W.E t := laid_bare (by simp [hkk, isPtrK]) hs hl hany
      simp only [isPtrK, ifaceK, Option.isSome_none, Bool.or_self, Bool.false_eq_true, if_false]
      refine yields_read fun x hx => ?_
      simp [receiver, hkk, ifaceK, isPtrK] at hx
      subst hx
      exact yields_imp (yields_call D (.indirect hnd hl)) fun b h => .inl h

/-! ## Natively handled types -/

theorem compact_strOut {dst c b : Bytes} (h : CompactText (.str c) b) : StrOut dst (dst ++ b) := by
  obtain ⟨kb, rfl, h2⟩ := compact_str h
  exact ⟨kb, c, rfl, h2⟩

theorem compact_numOut {dst c b : Bytes} (h : CompactText (.num c) b) : NumOut dst (dst ++ b) := by
  obtain ⟨rfl, h2⟩ := compact_num h
  exact ⟨_, rfl, h2⟩

theorem yields_time (D : Decent W P T o) {rec : RecL σ} {path : Path} {t : TId} {p : Loc} {s : σ} (hv : (T s).val t p) (dst : Bytes) :
    Yields (encodeSpecialL W P o lim rec path .time p dst) s (fun b => JsonOut dst b ∧ (bmHas o.flags .unixTime = false → StrOut dst b)) := by
  simp only [encodeSpecialL]
  refine yields_read fun x hx => yields_ret fun b hb => ?_
  have hat : (P.mem s).at p = some (.time x) := by
    unfold readTime at hx
    split at hx <;> simp at hx
    next h => rw [h, hx]
  obtain ⟨out, h1, rfl⟩ := pre_res_ok (pre_time W.appendFormat x _ _ _) hb
  obtain ⟨j, h2, h3⟩ := time_tree (D.time _ _ _ _ hv hat) h1
  refine ⟨⟨j, out, rfl, h2⟩, fun hu => ?_⟩
  cases h3 with
  | unix h => rw [hu] at h; cases h
  | _ => exact compact_strOut h2

theorem yields_duration (hl : FormatContract W.fmt) {rec : RecL σ} {path : Path} {p : Loc} {s : σ} (dst : Bytes) :
    Yields (encodeSpecialL W P o lim rec path .duration p dst) s (fun b => JsonOut dst b ∧ (o.durFmt ≠ .str → NumOut dst b)) := by
  simp only [encodeSpecialL]
  refine yields_read fun x hx => ?_
  split
  · refine yields_ret fun b hb => ?_
    obtain ⟨out, h1, rfl⟩ := pre_res_ok (pre_duration (contract_long hl) W.df _ _ _) hb
    obtain ⟨j, h2, h3⟩ := duration_tree hl h1
    refine ⟨⟨j, out, rfl, h2⟩, fun hu => ?_⟩
    cases h3 with
    | str h => exact absurd h hu
    | _ => exact compact_numOut h2
  · exact yields_ret (by simp)

theorem yields_number (D : Decent W P T o) {rec : RecL σ} {path : Path} {t : TId} {p : Loc} {s : σ} (hs : (W.E t).special = some .number) (hv : (T s).val t p)
    (dst : Bytes) : Yields (encodeSpecialL W P o lim rec path .number p dst) s (NumOut dst) := by
  simp only [encodeSpecialL]
  refine yields_read fun x hx => yields_ret fun b hb => ?_
  have hat : (P.mem s).at p = some (.str x) := by
    unfold readStr at hx
    split at hx <;> simp at hx
    next h => rw [h, hx]
  have hzero : IsNumber (b! "0") := ⟨[], b! "0", [], [], rfl, .inl rfl, .inl rfl, .inl rfl, .inl rfl⟩
  cases hn : bmHas o.flags .noNumberValidation with
  | true =>
    rw [hn] at hb
    have hx := D.number _ _ _ _ hn hv hs hat
    simp only [encodeNumber] at hb
    revert hb
    cases x with
    | nil => simp [exceptRes]; rintro rfl; exact ⟨_, rfl, hzero⟩
    | cons c x => simp [exceptRes]; rintro rfl; exact ⟨_, rfl, by simpa using hx⟩
  | false =>
    rw [hn] at hb
    rcases C07_encodeNumber x dst with ⟨h1, h2⟩ | ⟨h1, -⟩
    · rw [h1] at hb; cases hb; exact ⟨_, rfl, h2⟩
    · rw [h1] at hb; cases hb

theorem bytesAt_get {m : Mem} : ∀ {n : Nat} {p : Loc} {b : Bytes}, readBytesAt m n p = some b → b.length = n ∧
    ∀ i c, b[i]? = some c → m.at (p.add i) = some (.int (.uint8 c))
  | 0, p, b, h => by simp only [readBytesAt, Option.some.injEq] at h; subst h; simp
  | n + 1, p, b, h => by
    simp only [readBytesAt] at h
    split at h
    · next v hv =>
      cases hr : readBytesAt m n (p.add 1) with
      | none => rw [hr] at h; cases h
      | some b' =>
        rw [hr] at h
        cases h
        obtain ⟨h1, h2⟩ := bytesAt_get hr
        refine ⟨by simp [h1], fun i c hc => ?_⟩
        cases i with
        | zero =>
          simp only [List.getElem?_cons_zero, Option.some.injEq] at hc
          subst hc
          have hp : p.add 0 = p := by cases p <;> simp [Loc.add]
          rw [hp]; exact hv
        | succ i =>
          have := h2 i c (by simpa using hc)
          cases p with
          | heap a =>
            have e : a + 1 + i = a + (i + 1) := by rw [Nat.add_assoc, Nat.add_comm 1 i]
            simpa only [Loc.add, e] using this
          | tmp w => simp [Mem.at] at hv
    · cases h

theorem byteSlice_get {m : Mem} {p : Loc} {b : Bytes} (h : readByteSlice m p = some (some b)) : BytesIn m p b := by
  simp only [readByteSlice] at h
  split at h
  · next d n hd =>
    split at h
    · cases h
    · next h0 =>
      obtain ⟨b', hb, hbb⟩ := Option.map_eq_some_iff.mp h
      cases hbb
      obtain ⟨h1, h2⟩ := bytesAt_get hb
      refine ⟨d, h0, ?_, h2⟩
      unfold readSlice at hd
      split at hd <;> simp at hd
      next h => rw [h, h1, hd.1, hd.2]
  · cases h

theorem yields_raw (D : Decent W P T o) {rec : RecL σ} {path : Path} {t : TId} {p : Loc} {s : σ} (hs : (W.E t).special = some .rawMessage) (hv : (T s).val t p)
    (dst : Bytes) : Yields (encodeSpecialL W P o lim rec path .rawMessage p dst) s (JsonOut dst) := by
  simp only [encodeSpecialL]
  refine yields_read fun x hx => yields_ok ?_
  cases x with
  | none => exact null_json dst
  | some b =>
    obtain ⟨j, h1, h2⟩ := D.raw _ _ _ _ hv hs (byteSlice_get hx)
    simp only [encodeRawMessage]
    split
    · next hn => exact ⟨j, b, rfl, h2 hn⟩
    · obtain ⟨out, h3, h4⟩ := C14_compact_value dst b (!bmHas o.flags .noHTMLEscaping) j h1
      exact ⟨j, out, h3, h4⟩

theorem yields_byteSlice (D : Decent W P T o) {p : Loc} {s : σ} (dst : Bytes) :
    Yields (withReadL (fun s => readByteSlice (P.mem s) p) fun b => .ret (.ok (encodeByteSlice b dst o.esc (bmHas o.flags .rawByteSlice)))) s (JsonOut dst) := by
  refine yields_read fun x _ => yields_ok ?_
  cases x with
  | none => exact null_json dst
  | some b =>
    cases hr : bmHas o.flags .rawByteSlice with
    | true => exact str_json (escaped_out D.escaping b dst)
    | false =>
      obtain ⟨t, h1, h2, -⟩ := C16_base64 b dst o.esc
      rw [h1]
      exact str_json ⟨t, t, by simp [strToken], unescape_plain _ (base64_plainBytes h2)⟩

/-! ## Keys -/

theorem not_string {k : Kind} (h : isStringK k = false) : k ≠ .string := by rintro rfl; cases h

/-- The instruction of a key type that is not of kind string. -/
theorem yields_key (R : Grounds W) (C : Careful W.E P T) (D : Decent W P T o) (hl : FormatContract W.fmt) {kt : TId} (hp : KeyPlain W o kt)
    (hk : mapKeyOk W.E kt = true) (hs : isStringK (W.E kt).kind = false) {k : Nat} {ca : Bool} (hca : ca = true → isPtrK (W.E kt).kind = true)
    {i : Instr} (hi : newInstruction W.E k kt ca false = some i) {s : σ} {p : Loc} (hv : (T s).val kt p)
    (h0 : (W.E kt).meths.text = true → IsPtr W.E kt → (P.mem s).at p ≠ some (.word 0)) (n : Nat) (path : Path) (dst : Bytes) :
    Yields (runL W P o lim n path i p dst) s (fun b => if (W.E kt).meths.text then StrOut dst b else NumOut dst b) := by
  cases n with
  | zero => exact yields_nofuel
  | succ n =>
    cases ht : (W.E kt).meths.text with
    | true =>
      simp only [if_true]
      rcases hp.text (not_string hs) ht with ⟨h1, h2, h3⟩ | ⟨h1, h2⟩
      · have h2' : Picks W.E kt ca .text := by
          cases ca with
          | false => exact h2
          | true => have := hca rfl; rw [← this]; exact picks_ptr.mpr h2
        have hii := picks_made h1 h2' hi
        subst hii
        refine yields_imp (yields_marshaler R C D (newInstruction_typed _ hi) hv (fun h => .inl (hca h)) dst) ?_
        rintro b (⟨-, h⟩ | ⟨-, h | ⟨h, h'⟩⟩)
        · exact h rfl
        · exact absurd h h3
        · exact absurd h' (h0 ht h)
      · have := special_made h1 hi
        subst this
        simp only [runL, execL]
        exact yields_imp (yields_time D hv dst) fun b h => h.2 h2
    | false =>
      simp only [Bool.false_eq_true, if_false]
      rcases hp.num (not_string hs) ht with h1 | ⟨h1, h2⟩
      · have h1' : ByKind W.E kt ca := by
          cases ca with
          | false => exact h1
          | true => have := hca rfl; rw [← this]; exact byKind_ptr' h1
        simp only [mapKeyOk, hs, ht, Bool.false_or, Bool.or_false] at hk
        cases hkk : (W.E kt).kind <;> simp [hkk, isInteger] at hk
        have := byKind_basic h1' (by rw [hkk]; rfl) hi
        rw [hkk] at this
        simp [newBasicTypeInstr] at this
        subst this
        exact yields_int dst
      · have := special_made h1 hi
        subst this
        simp only [runL, execL]
        exact yields_imp (yields_duration hl dst) fun b h => h.2 h2

theorem yields_close {c : Act σ} {s : σ} {dst : Bytes} (h : Yields c s (NumOut (dst ++ b! "\""))) :
    Yields (c.andThen fun dst => .ret (.ok (dst ++ b! "\""))) s (StrOut dst) := by
  intro b hb
  simp only [Act.andThen] at hb
  cases hc : c s with
  | mk r s1 =>
    rw [hc] at hb
    cases r with
    | ok b1 => cases hb; exact plain_str (num_plain (h b1 (by rw [hc])))
    | _ => cases hb

theorem yields_mapKey (R : Grounds W) (C : Careful W.E P T) (D : Decent W P T o) (hl : FormatContract W.fmt) {kt : TId} (hp : KeyPlain W o kt)
    (hk : mapKeyOk W.E kt = true) {k : Nat} {ki : Instr}
    (hi : (if isStringK (W.E kt).kind then some .string else newInstruction W.E k kt false false) = some ki) {s : σ} {p : Loc} (hv : (T s).val kt p)
    (n : Nat) (path : Path) (dst : Bytes) : Yields (runL W P o lim n path (wrapKey W.E kt ki) p dst) s (StrOut dst) := by
  cases n with
  | zero => exact yields_nofuel
  | succ n =>
    cases hs : isStringK (W.E kt).kind with
    | true =>
      have hk := isStringK_iff.mp hs
      rw [hs] at hi
      simp only [if_true, Option.some.injEq] at hi
      subst hi
      simp only [wrapKey, hk, isPtrK, Bool.and_false, Bool.false_eq_true, if_false]
      exact yields_string D.escaping dst
    | false =>
      rw [hs] at hi
      simp only [Bool.false_eq_true, if_false] at hi
      cases ht : (W.E kt).meths.text with
      | false =>
        simp only [wrapKey, hs, ht, Bool.not_false, Bool.and_self, if_true, Bool.false_and, Bool.false_eq_true, if_false]
        refine yields_close ?_
        have := yields_key (lim := lim) R C D hl hp hk hs (by simp) hi hv (by rw [ht]; simp) n path (dst ++ b! "\"")
        rw [ht] at this
        exact this
      | true =>
        have key : ((W.E kt).meths.text = true → IsPtr W.E kt → (P.mem s).at p ≠ some (.word 0)) → ∀ n, Yields (runL W P o lim n path ki p dst) s (StrOut dst) := by
          intro h0 n
          have := yields_key (lim := lim) R C D hl hp hk hs (by simp) hi hv h0 n path dst
          rw [ht] at this
          exact this
        cases hpt : isPtrK (W.E kt).kind with
        | false =>
          simp only [wrapKey, hs, ht, hpt, Bool.not_true, Bool.and_false, Bool.false_eq_true, if_false]
          exact key (fun _ h => by rw [(isPtr_iff _ _).mp h] at hpt; cases hpt) (n + 1)
        | true =>
          simp only [wrapKey, hs, ht, hpt, Bool.not_true, Bool.and_false, Bool.false_eq_true, if_false, Bool.and_self, if_true]
          simp only [runL, execL]
          refine yields_read fun a ha => ?_
          split
          · exact yields_ok ⟨[], [], by simp [strToken], rfl⟩
          · next h0 =>
            refine key (fun _ _ h => ?_) n
            simp only [readWord, h, Option.some.injEq] at ha
            exact h0 ha.symm

theorem instrFor_made {E : Env} {n : Nat} {t : TId} {i : Instr} (h : instrFor E n t = some i) :
    ∃ k j, newInstruction E k t (isPtrK (E t).kind) false = some j ∧ i = if isInlined E n t then .inline j else j := by
  unfold instrFor at h
  split at h
  · simp at h
  · next j hj => exact ⟨_, j, hj, by simpa using h.symm⟩

/-- The instruction for an interface value reads the value. -/
theorem yields_held (R : Grounds W) {t : TId} {w : Addr} {i : Instr} {s : σ} (hx : (T s).Held W.E (some (t, w))) (hi : instrFor W.E W.tfuel t = some i)
    {Q : Bytes → Prop} {path : Path} {dst : Bytes} (n : Nat)
    (h : ∀ k j p m, newInstruction W.E k t (isPtrK (W.E t).kind) false = some j → (T s).val t p → (p = .tmp w ∨ ¬ Inlined W.E t) → m ≤ n →
      Yields (runL W P o lim m path j p dst) s Q) :
    Yields (runL W P o lim n path i (.heap w) dst) s Q := by
  obtain ⟨rank, hrank, hlt⟩ := R.nest
  have hdir := isInlined_iff hrank W.tfuel t (hlt t)
  obtain ⟨k, j, hj, rfl⟩ := instrFor_made hi
  cases hx with
  | direct hd hv =>
    rw [if_pos (hdir.mpr hd)]
    cases n with
    | zero => exact yields_nofuel
    | succ n =>
      simp only [runL, execL]
      exact h k j _ n hj hv (.inl rfl) (by omega)
  | indirect hd hv =>
    rw [if_neg (fun h => pointed_not_inlined hd (hdir.mp h))]
    exact h k j _ n hj hv (.inr (pointed_not_inlined hd)) (Nat.le_refl n)

theorem yields_syncKey (R : Grounds W) (C : Careful W.E P T) (D : Decent W P T o) (hl : FormatContract W.fmt) {x : Eface} {s : σ} (h : (T s).Held W.E x)
    (hk : ∀ kt w, x = some (kt, w) → KeyPlain W o kt ∧ (IsPtr W.E kt → w ≠ 0)) (n : Nat)
    (path : Path) (dst : Bytes) : Yields (appendSyncMapKeyL W P o (runL W P o lim n) path x dst) s (StrOut dst) := by
  cases x with
  | none => exact yields_ret (by simp)
  | some x =>
    obtain ⟨t, w⟩ := x
    obtain ⟨hp, hw⟩ := hk _ _ rfl
    simp only [appendSyncMapKeyL]
    split
    · exact yields_ret (by simp)
    · next hok =>
      split
      · exact yields_string D.escaping dst
      · next hs =>
        simp only [Bool.not_eq_true] at hs
        have hok : mapKeyOk W.E t = true := by
          revert hok
          simp only [mapKeyOk]
          cases isStringK (W.E t).kind <;> cases isInteger (W.E t).kind <;> cases (W.E t).meths.text <;> simp
        have key : ∀ dst, Yields (appendJSONL W (runL W P o lim n) path (some (t, w)) dst) s
            (fun b => if (W.E t).meths.text then StrOut dst b else NumOut dst b) := by
          intro dst
          simp only [appendJSONL]
          cases hi : instrFor W.E W.tfuel t with
          | none => exact yields_nofuel
          | some i =>
            refine yields_held R h hi n fun k j p m hj hv hpw _ => yields_key R C D hl hp hok hs (fun h => h) hj hv (fun _ hpt h0 => ?_) m path dst
            obtain ⟨e, he⟩ := hpt
            rcases hpw with rfl | hnd
            · simp only [Mem.at, Option.some.injEq, Cell.word.injEq] at h0
              exact hw ⟨e, he⟩ h0
            · exact hnd (.ptr he)
        cases ht : (W.E t).meths.text with
        | true =>
          have := key dst
          rw [ht] at this
          simp only [hs, Bool.not_true, Bool.and_false, Bool.false_eq_true, if_false]
          intro b hb
          simp only [Act.andThen] at hb
          cases hc : appendJSONL W (runL W P o lim n) path (some (t, w)) dst s with
          | mk r s1 =>
            rw [hc] at hb
            cases r with
            | ok b1 => cases hb; exact this _ (by rw [hc])
            | _ => cases hb
        | false =>
          have := key (dst ++ b! "\"")
          rw [ht] at this
          simp only [hs, Bool.not_false, Bool.and_self, if_true]
          exact yields_close this

/-! ## Arrays and structs -/

theorem yields_arrayLoop {rec : RecL σ} {path : Path} {ins : Instr} {es : Nat} {p : Loc} (s0 : σ) :
    ∀ (n i : Nat) (dst : Bytes) (s : σ), (T s0).Le (T s) →
    (∀ j, j < n → ∀ s', (T s0).Le (T s') → ∀ path dst, Safe T (rec path ins (p.add ((i + j) * es)) dst) s' ∧ Yields (rec path ins (p.add ((i + j) * es)) dst) s' (JsonOut dst)) →
    Yields (arrayLoopL rec path ins es p i n dst) s (fun b => ∃ ts js, All2 (fun t j => CompactText j t) ts js ∧
      b = dst ++ (if i = 0 then b! "[" ++ commas ts else (ts.map (b! "," ++ ·)).flatten) ++ b! "]")
  | 0, i, dst, s, _, _ => by
    refine yields_ok ⟨[], [], .nil, ?_⟩
    split <;> simp [commas]
  | n + 1, i, dst, s, h0, h => by
    simp only [arrayLoopL]
    have h00 := fun dst => h 0 (by omega) s h0 (i :: path) dst
    simp only [Nat.add_zero] at h00
    refine yields_andThen (h00 _).1 (h00 _).2 fun b s1 h1 q1 => ?_
    refine yields_imp (yields_arrayLoop s0 n (i + 1) b s1 (le_trans h0 h1) fun j hj => ?_) ?_
    · have := h (j + 1) (by omega)
      rwa [show i + 1 + j = i + (j + 1) by omega]
    · rintro b2 ⟨ts, js, h2, rfl⟩
      obtain ⟨j, out, rfl, hj⟩ := q1
      refine ⟨out :: ts, j :: js, .cons hj h2, ?_⟩
      by_cases hz : i = 0
      · simp [hz, commas_cons]
      · simp [hz]

theorem yields_structLoop {rec : RecL σ} {path : Path} {l : Loc} (s0 : σ) :
    ∀ (fs : List FInstr) (i : Nat) (first : Bool) (dst : Bytes) (s : σ), (T s0).Le (T s) →
    (∀ f ∈ fs, f.omitNullMarshaler = false ∧ (∃ c, KeyOf c (fieldKey o f.fld.name)) ∧ ∀ s', (T s0).Le (T s') → ∀ l', fieldLoc (P.mem s') o f l = some (some l') →
      ∀ path dst, Safe T (rec path f.instr l' dst) s' ∧ Yields (rec path f.instr l' dst) s' (JsonOut dst)) →
    Yields (structLoopL P o rec path l i fs first dst) s (fun b => ∃ ts, Membs ts ∧
      b = dst ++ (if first then b! "{" ++ commas ts else (ts.map (b! "," ++ ·)).flatten) ++ b! "}")
  | [], i, first, dst, s, _, _ => by
    refine yields_ok ⟨[], membs_nil, ?_⟩
    cases first <;> simp [commas]
  | f :: fs, i, first, dst, s, h0, h => by
    obtain ⟨h1, ⟨c, kb, hk1, hk2⟩, h2⟩ := h f (by simp)
    have ih := fun i first dst s h0 => yields_structLoop (l := l) (path := path) s0 fs i first dst s h0 (fun g hg => h g (by simp [hg]))
    simp only [structLoopL]
    refine yields_read fun x hx => ?_
    cases x with
    | none => exact ih _ _ _ s h0
    | some l' =>
      simp only
      refine yields_andThen (h2 s h0 l' hx _ _).1 (h2 s h0 l' hx _ _).2 fun b s1 hle q => ?_
      simp only [h1, Bool.false_and, Bool.false_eq_true, if_false]
      refine yields_imp (ih _ _ _ s1 (le_trans h0 hle)) ?_
      rintro b2 ⟨ts, h3, rfl⟩
      obtain ⟨j, out, rfl, hj⟩ := q
      refine ⟨(strToken kb ++ (c! ':' :: out)) :: ts, membs_cons (m := (c, j)) ⟨kb, out, rfl, hk2, hj⟩ h3, ?_⟩
      rw [hk1]
      cases first
      · simp
      · simp [commas_cons]

/-! ## All instructions -/

/-- Recursive calls append JSON. -/
def TextRec (W : World) (T : σ → Places) (rec : RecL σ) : Prop :=
  ∀ {k t ca q i p s}, newInstruction W.E k t ca q = some i → (T s).val t p → (ca = true → isPtrK (W.E t).kind = true ∨ InHeap p) →
    ∀ path dst, Yields (rec path i p dst) s (JsonOut dst)

def TextRecE (W : World) (T : σ → Places) (rec : RecL σ) : Prop :=
  ∀ {t w i s}, (T s).Held W.E (some (t, w)) → instrFor W.E W.tfuel t = some i → ∀ path dst, Yields (rec path i (.heap w) dst) s (JsonOut dst)

theorem yields_appendJSON {rec : RecL σ} (hE : TextRecE W T rec) {x : Eface} {s : σ} (h : (T s).Held W.E x) (path : Path) (dst : Bytes) :
    Yields (appendJSONL W rec path x dst) s (JsonOut dst) := by
  cases x with
  | none => exact yields_ret (by simp)
  | some x =>
    obtain ⟨t, w⟩ := x
    simp only [appendJSONL]
    cases hi : instrFor W.E W.tfuel t with
    | none => exact yields_nofuel
    | some i => exact hE h hi _ _

theorem yields_array (D : Decent W P T o) {rec : RecL σ} (sA : SafeRec W T rec) (hA : TextRec W T rec) {path : Path} {k : Nat} {ins : Instr} {e : TId} {ca : Bool} {p : Loc}
    {isba : Bool} {n : Nat} {s : σ} (hi : newInstruction W.E k e ca false = some ins) (hca : ca = true → ∀ i, InHeap (p.add i))
    (hv : ∀ i, i < n → (T s).val e (p.add (i * (W.E e).size))) (dst : Bytes) :
    Yields (encodeArrayL P o rec path ins (W.E e).size n isba p dst) s (JsonOut dst) := by
  simp only [encodeArrayL]
  split
  · exact yields_read fun b _ => yields_ok (str_json (escaped_out D.escaping b dst))
  · refine yields_imp (yields_arrayLoop (T := T) s n 0 dst s (le_refl _) fun j hj s' h' path dst => ?_) ?_
    · rw [Nat.zero_add]
      exact ⟨sA (newInstruction_typed _ hi) (h'.1 _ _ (hv j hj)) (fun hc => .inr (hca hc _)) path dst, hA hi (h'.1 _ _ (hv j hj)) (fun hc => .inr (hca hc _)) path dst⟩
    · rintro b ⟨ts, js, h, rfl⟩
      exact ⟨_, _, by simp, compact_arr h⟩

theorem yields_struct (R : Grounds W) (C : Careful W.E P T) (D : Decent W P T o) {rec : RecL σ} (sA : SafeRec W T rec) (hA : TextRec W T rec) {t : TId} {ca : Bool} {p : Loc} {s : σ}
    (hst : IsStruct W.E t) (hv : (T s).val t p) (hca : ca = true → InHeap p) (path : Path) (dst : Bytes) :
    Yields (execL W P o lim rec path (.struct t ca) p dst) s (JsonOut dst) := by
  simp only [execL]
  split
  · exact yields_ok ⟨_, _, rfl, Gr.obj0 (W := NoWs) [] noWs_nil⟩
  · cases hfl : structFieldsInstr W.E W.U W.grow W.sort W.tfuel t ca with
    | none => exact yields_nofuel
    | some flds =>
      obtain ⟨fl, hsf, hmap, hok⟩ := structFieldsInstr_ok hfl
      obtain ⟨hfld, hnew⟩ := mapM_fld hmap
      obtain ⟨g, hmem, hbeh⟩ := members_of R.tab R.sort (R.apart t) hsf
      have hroute := structFields_route R.tab (R.apart t) R.sort hsf
      refine yields_imp (yields_structLoop (T := T) s flds 0 true dst s (le_refl _) fun f hf => ?_) ?_
      · have hin : f.fld ∈ fl := by rw [← hfld]; exact List.mem_map_of_mem hf
        obtain ⟨hb', u, i, hp⟩ := hbeh _ hin
        obtain ⟨ftyp, h1, h2, h3, h4, h5, h6⟩ := newFieldInstr_inv (hnew f hf)
        have hty : (g f.fld).decl.typ = ftyp := by have := promoted_type hst hp; rw [h1] at this; simpa using this.symm
        have hch : ChosenField W.U.isLetter W.U.isDigit W.E t (g f.fld) := (hmem.2 _).mp (List.mem_map_of_mem hin)
        refine ⟨?_, ⟨_, by rw [← hb'.name]; exact fieldKey_keyOf R.tab (chosen_name D.names hch)⟩, fun s' hle l' hl' path dst => ?_⟩
        · rw [h4]
          cases ho : f.fld.omitNil with
          | false => rfl
          | true =>
            have := D.null s t p _ hv hst hch (hb'.omitNil.mp ho)
            simp only [HasMarshalJSON, hty, not_or, Bool.not_eq_true] at this
            simp [this.1, this.2]
        · obtain ⟨-, ftyp', hf'⟩ := hok f hf
          have hfa := field_arrives (o := o) R.types (C.sane s') (hle.1 _ _ hv) hst hf' (hroute _ hin)
          have : ftyp' = ftyp := by have := hf'.typ; rw [h1] at this; simpa using this.symm
          subst this
          rw [hl'] at hfa
          cases hfa with
          | found hval hheap =>
            exact ⟨sA hf'.instr hval (fun hc => .inr (hheap (hca hc))) path dst, hA h6 hval (fun hc => .inr (hheap (hca hc))) path dst⟩
      · rintro b ⟨ts, ⟨ms, h⟩, rfl⟩
        exact ⟨_, _, by simp, compact_obj h⟩

theorem text_run (R : Grounds W) (C : Careful W.E P T) (D : Decent W P T o) (hl : FormatContract W.fmt) :
    ∀ n, TextRec W T (runL W P o lim n) ∧ TextRecE W T (runL W P o lim n)
  | 0 => ⟨fun _ _ _ _ _ => yields_nofuel, fun _ _ _ _ => yields_nofuel⟩
  | n + 1 => by
    obtain ⟨hA, hE⟩ := text_run R C D hl n
    obtain ⟨sA, sE⟩ := safe_run (o := o) (lim := lim) R C n
    have hA' : TextRec W T (runL W P o lim (n + 1)) := by
      intro k t ca q i p s hm hv hca path dst
      have hla := (C.sane s).val _ _ hv
      have hin : isPtrK (W.E t).kind = false → ca = true → ∀ i, InHeap (p.add i) := by
        intro h1 hc i
        rcases hca hc with h | h
        · rw [h1] at h; cases h
        · exact inHeap_add h i
      have hin0 : isPtrK (W.E t).kind = false → ca = true → InHeap p := by
        intro h1 hc
        rcases hca hc with h | h
        · rw [h1] at h; cases h
        · exact h
      cases hs : (W.E t).special with
      | some sp =>
        have := special_made hs hm
        subst this
        simp only [runL, execL]
        cases sp with
        | time => exact yields_imp (yields_time D hv dst) fun b h => h.1
        | duration => exact yields_imp (yields_duration hl dst) fun b h => h.1
        | number => exact yields_imp (yields_number D hs hv dst) fun b h => num_json h
        | rawMessage => exact yields_raw D hs hv dst
        | syncMap =>
          simp only [encodeSpecialL, encodeSyncMapL]
          refine yields_read fun _ _ => ?_
          refine yields_entries (T := T) (A := fun s x => ((T s).Held W.E x.1 ∧ (T s).Held W.E x.2) ∧ ∀ kt w, x.1 = some (kt, w) → KeyPlain W o kt ∧ (IsPtr W.E kt → w ≠ 0)) R.sort s ?_ ?_ ?_ ?_ ?_ dst
          · intro s' n a h hx
            exact ⟨C.sentry _ _ _ _ _ _ (h.1 _ _ hv) hs hx, fun kt w hkt => D.skey _ _ _ _ _ _ _ _ (h.1 _ _ hv) hs hx hkt⟩
          · intro s' a n dst _ ha; exact safe_syncKey R C sE ha.1.1 _ _
          · intro s' s'' a n dst _ ha h'; exact safe_appendJSON sE (held_le h' ha.1.2) _ _
          · intro s' a m dst _ ha; exact yields_syncKey R C D hl ha.1.1 ha.2 n _ _
          · intro s' s'' a n dst _ ha h'; exact yields_appendJSON hE (held_le h' ha.1.2) _ _
      | none =>
        rcases picks_or_byKind (ca := ca) hs with hb | ⟨m, hp⟩
        · cases hk : (W.E t).kind with
          | bool | int _ | float _ | string => exact yields_basic D hl (byKind_basic hb (by rw [hk]; rfl) hm) (n + 1) path p s dst
          | ptr e =>
            obtain ⟨k', j, hj, rfl⟩ := byKind_ptr hb hk hm
            obtain ⟨a, hat, ha⟩ := laid_ptr R.types hk hla
            simp only [runL, execL]
            refine yields_read fun a' ha' => ?_
            simp only [readWord, hat, Option.some.injEq] at ha'
            subst ha'
            split
            · next h0 => exact hA hj (ha h0) (fun _ => .inr ⟨a, h0, rfl⟩) path dst
            · exact yields_ok (null_json dst)
          | iface k' =>
            have := byKind_iface hb hk hm
            subst this
            obtain ⟨x, hat, hx⟩ := laid_iface R.types hk hla
            simp only [runL, execL]
            refine yields_read fun y hy => ?_
            have hxy : y = none ∨ y = x := by
              rcases hat with ⟨_, h⟩ | ⟨_, h⟩
              · simp only [readEface, h, Option.some.injEq] at hy; exact .inr hy.symm
              · simp only [readEface, h] at hy
                cases x <;> simp at hy
                exact .inl hy.symm
            cases y with
            | none => exact yields_ok (null_json dst)
            | some y =>
              rcases hxy with h | h
              · cases h
              · exact yields_appendJSON hE (by rw [h]; exact hx) path dst
          | slice e =>
            cases he : isByteElem W.E e with
            | true =>
              have := byKind_byteSlice hb hk he hm
              subst this
              exact yields_byteSlice D dst
            | false =>
              obtain ⟨k', j, hj, rfl⟩ := byKind_slice hb hk he hm
              obtain ⟨d, m, hat, hd⟩ := laid_slice R.types hk hla
              simp only [runL, execL]
              refine yields_read fun y hy => ?_
              simp only [readSlice, hat, Option.some.injEq] at hy
              subst hy
              simp only
              split
              · split
                · exact yields_ok ⟨_, _, rfl, Gr.arr0 (W := NoWs) [] noWs_nil⟩
                · exact yields_ok (null_json dst)
              · next h0 =>
                split
                · exact yields_ok ⟨_, _, rfl, Gr.arr0 (W := NoWs) [] noWs_nil⟩
                · exact yields_array D sA hA hj (fun _ i => inHeap_add ⟨d, h0, rfl⟩ i) (fun i hi => by simpa [Loc.add] using hd h0 i hi) dst
          | array m e =>
            obtain ⟨k', j, hj, rfl⟩ := byKind_array hb hk hm
            exact yields_array D sA hA hj (hin (by rw [hk]; rfl)) (laid_array R.types hk hla) dst
          | struct fs =>
            have := byKind_struct hb hk hm
            subst this
            exact yields_struct R C D sA hA ⟨fs, hk⟩ hv (hin0 (by rw [hk]; rfl)) path dst
          | map kt e =>
            cases hkey : mapKeyOk W.E kt with
            | false =>
              have := byKind_badMap hb hk hkey hm
              subst this
              exact yields_ret (by simp)
            | true =>
              obtain ⟨k', ki, vi, h1, h2, rfl⟩ := byKind_map hb hk hkey hm
              have hty := newInstruction_typed _ hm
              obtain ⟨a, hat, ha⟩ := laid_map R.types hk hla
              simp only [runL, execL, encodeMapL]
              refine yields_read fun a' ha' => ?_
              simp only [readWord, hat, Option.some.injEq] at ha'
              subst ha'
              split
              · split
                · exact yields_ok ⟨_, _, rfl, Gr.obj0 (W := NoWs) [] noWs_nil⟩
                · exact yields_ok (null_json dst)
              · next h0 =>
                have hmm := ha h0
                refine yields_read fun es _ => ?_
                split
                · exact yields_ok ⟨_, _, rfl, Gr.obj0 (W := NoWs) [] noWs_nil⟩
                · have hkp := D.key _ _ _ _ _ hv hk
                  have hki : Typed W.E kt false (wrapKey W.E kt ki) := by
                    cases hty with
                    | map hk' _ hki _ => rw [hk] at hk'; cases hk'; exact hki
                  refine yields_entries (T := T) (A := fun s x => (T s).val kt (.heap x.1) ∧ (T s).val e (.heap x.2)) R.sort s ?_ ?_ ?_ ?_ ?_ dst
                  · intro s' n a h hx; exact C.entry _ _ _ _ _ _ _ (h.2 _ _ _ hmm) hx
                  · intro s' a n dst _ hx; exact sA hki hx.1 (by simp) _ _
                  · intro s' s'' a n dst _ hx h'; exact sA (newInstruction_typed _ h2) (h'.1 _ _ hx.2) (by simp) _ _
                  · intro s' a m dst _ hx; exact yields_mapKey R C D hl hkp hkey h1 hx.1 n _ _
                  · intro s' s'' a n dst _ hx h'; exact hA h2 (h'.1 _ _ hx.2) (by simp) _ _
          | other =>
            have := byKind_other hb hk hm
            subst this
            exact yields_ret (by simp)
        · have := picks_made hs hp hm
          subst this
          refine yields_imp (yields_marshaler R C D (newInstruction_typed _ hm) hv hca dst) ?_
          rintro b (⟨h, -⟩ | ⟨rfl, -⟩)
          · exact h
          · exact null_json dst
    refine ⟨hA', ?_⟩
    intro t w i s hx hi path dst
    refine yields_held R hx hi (n + 1) fun k j p m hj hv hpw hmn => ?_
    rcases Nat.lt_or_ge m (n + 1) with h | h
    · exact (text_run R C D hl m).1 hj hv (fun h => .inl h) path dst
    · have : m = n + 1 := by omega
      subst this
      exact hA' hj hv (fun h => .inl h) path dst
termination_by n => n

end Jettison.Proofs
