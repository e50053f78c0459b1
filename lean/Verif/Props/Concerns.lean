import Verif.Spec.Concerns
import Verif.Proofs.Alphabet
import Verif.Props.WritesExact

/-!
# C75: an option changes nothing but what it is about

Two calls whose settings differ only in ways that are about no part of the value that is encoded
(`Concerned`, Spec/Concerns) return the same.
-/

namespace Jettison.Props
open Jettison Jettison.Model Jettison.Spec Jettison.Proofs

variable {W : World} {M : MethV} {o o' : EncOpts} {t : TId} {ca q : Bool} {v : Val} {b b' : Bytes}

/-! ## Strings -/

theorem spelling_html {h h' c : Bool} {s r : Bytes} (hs : Spelling h c s r) (hn : ∀ d ∈ s, ¬ IsHtml d) : Spelling h' c s r := by
  induction hs with
  | nil => exact .nil
  | quote _ ih => exact .quote (ih fun d hd => hn d (List.mem_cons_of_mem _ hd))
  | backslash _ ih => exact .backslash (ih fun d hd => hn d (List.mem_cons_of_mem _ hd))
  | newline _ ih => exact .newline (ih fun d hd => hn d (List.mem_cons_of_mem _ hd))
  | ret _ ih => exact .ret (ih fun d hd => hn d (List.mem_cons_of_mem _ hd))
  | tab _ ih => exact .tab (ih fun d hd => hn d (List.mem_cons_of_mem _ hd))
  | control h1 h2 h3 h4 _ ih => exact .control h1 h2 h3 h4 (ih fun d hd => hn d (List.mem_cons_of_mem _ hd))
  | html _ h1 => exact absurd h1 (hn _ List.mem_cons_self)
  | ascii h1 h2 h3 h4 _ _ ih => exact .ascii h1 h2 h3 h4 (fun _ => hn _ List.mem_cons_self) (ih fun d hd => hn d (List.mem_cons_of_mem _ hd))
  | sep8 h1 _ ih => exact .sep8 h1 (ih fun d hd => hn d (List.mem_append_right _ hd))
  | sep9 h1 _ ih => exact .sep9 h1 (ih fun d hd => hn d (List.mem_append_right _ hd))
  | char h1 h2 h3 _ ih => exact .char h1 h2 h3 (ih fun d hd => hn d (List.mem_append_right _ hd))
  | replaced h1 h2 _ ih => exact .replaced h1 h2 (ih fun d hd => hn d (List.mem_cons_of_mem _ hd))
  | kept h1 h2 _ ih => exact .kept h1 h2 (ih fun d hd => hn d (List.mem_cons_of_mem _ hd))

theorem high_absurd {cp : Nat} {s : Bytes} (h1 : IsScalar cp) (h2 : 0x80 ≤ cp) (hn : ∀ d ∈ utf8Encode cp ++ s, d.toNat < 0x80) : False := by
  obtain ⟨c, x, e, hc, -⟩ := encode_parts h1 h2
  have := hn c (by rw [e]; simp)
  omega

theorem spelling_coerce {h c c' : Bool} {s r : Bytes} (hs : Spelling h c s r) (hn : ∀ d ∈ s, d.toNat < 0x80) : Spelling h c' s r := by
  induction hs with
  | nil => exact .nil
  | quote _ ih => exact .quote (ih fun d hd => hn d (List.mem_cons_of_mem _ hd))
  | backslash _ ih => exact .backslash (ih fun d hd => hn d (List.mem_cons_of_mem _ hd))
  | newline _ ih => exact .newline (ih fun d hd => hn d (List.mem_cons_of_mem _ hd))
  | ret _ ih => exact .ret (ih fun d hd => hn d (List.mem_cons_of_mem _ hd))
  | tab _ ih => exact .tab (ih fun d hd => hn d (List.mem_cons_of_mem _ hd))
  | control h1 h2 h3 h4 _ ih => exact .control h1 h2 h3 h4 (ih fun d hd => hn d (List.mem_cons_of_mem _ hd))
  | html h1 h2 _ ih => exact .html h1 h2 (ih fun d hd => hn d (List.mem_cons_of_mem _ hd))
  | ascii h1 h2 h3 h4 h5 _ ih => exact .ascii h1 h2 h3 h4 h5 (ih fun d hd => hn d (List.mem_cons_of_mem _ hd))
  | sep8 => exact (high_absurd (by decide) (by decide) hn).elim
  | sep9 => exact (high_absurd (by decide) (by decide) hn).elim
  | char h1 h2 => exact (high_absurd h1 h2 hn).elim
  | replaced _ h2 => exact absurd (hn _ List.mem_cons_self) (by have := bad_high h2; omega)
  | kept _ h2 => exact absurd (hn _ List.mem_cons_self) (by have := bad_high h2; omega)

theorem spelling_same {h c : Bool} {s r : Bytes} (hs : Spelling h c s r) (hn : ∀ d ∈ s, ClearChar d) : r = s := by
  have hc : ∀ {d : UInt8} {s : Bytes}, (∀ x ∈ d :: s, ClearChar x) → ClearChar d ∧ ∀ x ∈ s, ClearChar x :=
    fun h => ⟨h _ List.mem_cons_self, fun x hx => h x (List.mem_cons_of_mem _ hx)⟩
  induction hs with
  | nil => rfl
  | quote => exact absurd rfl (hc hn).1.2.2.1
  | backslash => exact absurd rfl (hc hn).1.2.2.2.1
  | newline | ret | tab => exact absurd (hc hn).1.1 (by decide)
  | control h1 => exact absurd (hc hn).1.1 (by omega)
  | html _ h2 => exact absurd h2 (hc hn).1.2.2.2.2
  | ascii _ _ _ _ _ _ ih => rw [ih (hc hn).2]; rfl
  | sep8 => exact (high_absurd (by decide) (by decide) fun d hd => (hn d hd).2.1).elim
  | sep9 => exact (high_absurd (by decide) (by decide) fun d hd => (hn d hd).2.1).elim
  | char h1 h2 => exact (high_absurd h1 h2 fun d hd => (hn d hd).2.1).elim
  | replaced _ h2 => exact absurd (hc hn).1.2.1 (by have := bad_high h2; omega)
  | kept _ h2 => exact absurd (hc hn).1.2.1 (by have := bad_high h2; omega)

theorem spelledAs_clear {s : Bytes} (hc : ∀ c ∈ s, ClearChar c) (h : SpelledAs o s b) : b = s := by
  cases h with
  | raw => rfl
  | escaped _ h => exact spelling_same h hc

theorem spelledAs_two {s : Bytes} (ht : TextSame o o' s) (h : SpelledAs o s b) (h' : SpelledAs o' s b') : b = b' := by
  rcases ht with hc | ⟨h1, h2⟩
  · rw [spelledAs_clear hc h, spelledAs_clear hc h']
  · cases h with
    | raw h3 =>
      cases h' with
      | raw => rfl
      | escaped h4 => rw [SameFlag, h3, h4] at h1; cases h1
    | escaped h3 g =>
      cases h' with
      | raw h4 => rw [SameFlag, h3, h4] at h1; cases h1
      | escaped h4 g' =>
        obtain ⟨e1, e2⟩ := h2 h3
        have g1 : Spelling (!bmHas o'.flags .noHTMLEscaping) (!bmHas o.flags .noUTF8Coercion) s b := by
          rcases e1 with e1 | e1
          · rw [← e1]; exact g
          · exact spelling_html g e1
        have g2 : Spelling (!bmHas o'.flags .noHTMLEscaping) (!bmHas o'.flags .noUTF8Coercion) s b := by
          rcases e2 with e2 | e2
          · rw [← e2]; exact g1
          · exact spelling_coerce g1 e2
        exact spelling_unique g2 g'

theorem marked_clear {s r : Bytes} (h : Marked s r) (hc : ∀ c ∈ s, ¬ IsHtml c ∧ c.toNat < 0x80) : r = s := by
  induction h with
  | nil => rfl
  | html h1 => exact absurd h1 (hc _ List.mem_cons_self).1
  | sep8 => exact (high_absurd (by decide) (by decide) fun d hd => (hc d hd).2).elim
  | sep9 => exact (high_absurd (by decide) (by decide) fun d hd => (hc d hd).2).elim
  | other _ _ _ ih => rw [ih fun d hd => hc d (List.mem_cons_of_mem _ hd)]; rfl

theorem namedAs_two {s : Bytes} (ht : NameSame o o' s) (h : NamedAs o s b) (h' : NamedAs o' s b') : b = b' := by
  rcases ht with ht | ht
  · cases h with
    | raw h1 => exact namedAs_unique (o := o') (.raw (by rw [← ht]; exact h1)) h'
    | marked h1 h2 => exact namedAs_unique (o := o') (.marked (by rw [← ht]; exact h1) h2) h'
  · have key : ∀ {o : EncOpts} {b : Bytes}, NamedAs o s b → b = s := by
      intro o b h
      cases h with
      | raw => rfl
      | marked _ h => exact marked_clear h ht
    rw [key h, key h']

theorem copiedAs_two {s : Bytes} (ht : CopySame o o') (h : CopiedAs o s b) (h' : CopiedAs o' s b') : b = b' := by
  obtain ⟨h1, h2⟩ := ht
  refine copiedAs_unique (o := o') ?_ h'
  cases h with
  | verbatim h => exact .verbatim (by rw [← h1]; exact h)
  | compact h g =>
    have := h2 h
    exact .compact (by rw [← h1]; exact h) (by rw [← this]; exact g)

theorem timeText_two {x : GoTime} (ht : TimeSame o o') (h : TimeText W o x b) (h' : TimeText W o' x b') : b = b' := by
  obtain ⟨h1, h2⟩ := ht
  refine timeText_unique (o := o') ?_ h'
  cases h with
  | unix g1 g2 => exact .unix (by rw [← h1]; exact g1) g2
  | rfc3339 g1 g2 g3 => exact .rfc3339 (by rw [← h1]; exact g1) (by rw [← h2 g1]; exact g2) g3
  | nano g1 g2 g3 => exact .nano (by rw [← h1]; exact g1) (by rw [← h2 g1]; exact g2) g3
  | layout g1 g2 => exact .layout (by rw [← h1]; exact g1) (by rw [← h2 g1]; exact g2)

theorem durationText_two {d : Int64} (ht : o.durFmt = o'.durFmt) (h : DurationText W o d b) (h' : DurationText W o' d b') : b = b' := by
  refine durationText_unique (o := o') ?_ h'
  cases h with
  | str h1 h2 h3 => exact .str (by rw [← ht]; exact h1) h2 h3
  | neg h1 h2 h3 => exact .neg (by rw [← ht]; exact h1) h2 h3
  | ns h1 h2 => exact .ns (by rw [← ht]; exact h1) h2
  | us h1 h2 => exact .us (by rw [← ht]; exact h1) h2
  | ms h1 h2 => exact .ms (by rw [← ht]; exact h1) h2
  | sec h1 h2 => exact .sec (by rw [← ht]; exact h1) h2
  | min h1 h2 => exact .min (by rw [← ht]; exact h1) h2

theorem unconcerned_of {P : Prop} (h : ¬ ¬ P) : P := Classical.byContradiction h

/-- Entries are in the same order. -/
theorem inOrder_same {ms a c : List (Bytes × Bytes)} (hs : OrderSame o o' ms.length) (hd : ms.Pairwise fun x y => keyBody x.1 = keyBody y.1 → x = y)
    (ha : InOrder o ms a) (hb : InOrder o' ms c) : a = c := by
  rcases hs with h | ⟨h1, h2⟩
  · have := List.length_eq_zero_iff.mp h
    subst this
    rw [List.perm_nil.mp ha.1, List.perm_nil.mp hb.1]
  · rcases h2 with h2 | h2
    · obtain ⟨m, rfl⟩ := List.length_eq_one_iff.mp h2
      rw [List.perm_singleton.mp ha.1, List.perm_singleton.mp hb.1]
    · exact inOrder_unique (o := o) h2 hd ha ⟨hb.1, fun _ => hb.2 (by rw [← h1]; exact h2)⟩

/-! ## Values -/

theorem unconcerned_part {t' : TId} {ca' : Bool} {v' : Val} (h : Unconcerned W o o' t ca v) (hp : Encodes1 W o t ca v t' ca' v') : Unconcerned W o o' t' ca' v' :=
  fun _ _ _ he => h _ _ _ (.step hp he)

theorem leftOut_same {m : MField} (hb : ByKind W.E t ca) (hs : IsStruct W.E t) (hm : ChosenField W.U.isLetter W.U.isDigit W.E t m)
    (h : ¬ Concerned W o o' t ca v) : LeftOut o v m ↔ LeftOut o' v m := by
  have : Hidden o.allowList o.denyList m.name ↔ Hidden o'.allowList o'.denyList m.name := unconcerned_of fun hn => h (.lists hb hs hm hn)
  unfold LeftOut
  rw [this]

/-- The texts of smaller values are the same. -/
def SameBelow (W : World) (M : MethV) (o o' : EncOpts) (n : Nat) : Prop :=
  ∀ t ca q v b b', sizeOf v < n → HasType W.E t v → KeysTold W M o t v → Unconcerned W o o' t ca v → Writes W M o t ca q v b → Writes W M o' t ca q v b' → b = b'

theorem unconcerned_meth (hP : PathFree M) {m : MethKind} (hs : (W.E t).special = none) (hm : Picks W.E t ca m) (hx : ¬ Concerned W o o' t ca v)
    (h : Writes W M o t ca q v b) (h' : Writes W M o' t ca q v b') : b = b' := by
  rcases w_meth hs hm h with ⟨rfl, rfl, g1, g2⟩ | ⟨rt, x, u, g1, g2⟩ <;> rcases w_meth hs hm h' with ⟨e, rfl, g1', g2'⟩ | ⟨rt', x', u', g1', g2'⟩
  · rfl
  · exfalso
    cases g1' with
    | own _ n1 n2 => exact g2.elim (fun h => n2 h rfl) n1
    | addr n1 => exact n1 g1
  · subst e
    exfalso
    cases g1 with
    | own _ n1 n2 => exact g2'.elim (fun h => n2 h rfl) n1
    | addr n1 => exact n1 g1'
  · obtain ⟨rfl, rfl, -⟩ := receives_unique g1 g1'
    cases g2 with
    | ctx h1 =>
      have e : o.ctx = o'.ctx := unconcerned_of fun hn => hx (.ctx hs hm g1 hn)
      rw [e] at h1
      exact methText_unique hP (.ctx h1) g2'
    | app h1 => exact methText_unique hP (.app h1) g2'
    | text h1 => exact methText_unique hP (.text h1) g2'
    | json h1 _ h3 =>
      have e : CopySame o o' := unconcerned_of fun hn => hx (.json hs hm g1 hn)
      cases g2' with
      | json h1' _ h3' =>
        rw [hP _ _ _ _ _ _ _, h1'] at h1
        cases h1
        exact copiedAs_two e h3 h3'

theorem unconcerned_scalar (hb : ByKind W.E t ca) (hk : isBasicK (W.E t).kind = true) (hx : ¬ Concerned W o o' t ca v) (h : Writes W M o t ca false v b)
    (h' : Writes W M o' t ca false v b') : b = b' := by
  rcases w_scalar hb hk h with ⟨x, rfl, h1⟩ | ⟨x, rfl, h1⟩ | ⟨w, x, rfl, h1⟩ | ⟨s, c, rfl, h1, h2⟩ <;>
    rcases w_scalar hb hk h' with ⟨x', e, h1'⟩ | ⟨x', e, h1'⟩ | ⟨w', x', e, h1'⟩ | ⟨s', c', e, h1', h2'⟩ <;> cases e
  · rw [h1, h1']
  · exact intLiteral_unique h1 h1'
  · exact floatText_unique h1 h1'
  · have hks : (W.E t).kind = .string := by
      generalize hv : Val.str s = v at h
      cases h with
      | str _ hk' => exact hk'
      | struct _ hst => obtain ⟨fs, hf⟩ := hst; rw [HasFields] at hf; rw [hf] at hk; cases hk
      | _ => first | cases hv; done | exact (picks_byKind ‹_› hb).elim | (have hsp := ByKind.special hb; simp_all; done)
    rw [h2, h2', spelledAs_two (unconcerned_of fun hn => hx (.str hb hks hn)) h1 h1']

theorem unconcerned_basic (hb : ByKind W.E t ca) (hk : isBasicK (W.E t).kind = true) (hx : ¬ Concerned W o o' t ca v) (h : Writes W M o t ca q v b)
    (h' : Writes W M o' t ca q v b') : b = b' := by
  cases q with
  | false => exact unconcerned_scalar hb hk hx h h'
  | true =>
    rcases w_quoted hb hk h with ⟨h1, c, h2, rfl⟩ | ⟨h1, s, c, rfl, h2, rfl⟩ <;>
      rcases w_quoted hb hk h' with ⟨h1', c', h2', rfl⟩ | ⟨h1', s', c', e, h2', rfl⟩
    · rw [unconcerned_scalar hb hk hx h2 h2']
    · exact absurd h1' h1
    · exact absurd h1 h1'
    · cases e; rw [spelledAs_two (unconcerned_of fun hn => hx (.str hb h1 hn)) h2 h2']

theorem key_two {k : TId} {x : Val} (hstr : ∀ s, (W.E k).kind = .string → x = .str s → TextSame o o' s)
    (ih : (W.E k).kind ≠ .string → ((W.E k).meths.text = true → IsPtr W.E k → x ≠ .nil) → ∀ b b', Writes W M o k false false x b → Writes W M o' k false false x b' → b = b')
    (h : KeyWrites W M o k x b) (h' : KeyWrites W M o' k x b') : b = b' := by
  cases h with
  | str h1 h2 =>
    cases h' with
    | str _ h3 => rw [spelledAs_two (hstr _ h1 rfl) h2 h3]
    | text h | quoted h => exact absurd h1 h
  | nilText h1 h2 h3 =>
    cases h' with
    | nilText => rfl
    | text _ _ h => exact absurd rfl (h h3)
    | quoted _ h => rw [h] at h2; cases h2
  | text h1 h2 h3 h4 =>
    cases h' with
    | str h => exact absurd h h1
    | nilText _ _ h => exact absurd rfl (h3 h)
    | text _ _ _ h => exact ih h1 (fun _ => h3) _ _ h4 h
    | quoted _ h => rw [h] at h2; cases h2
  | quoted h1 h2 h4 =>
    cases h' with
    | str h => exact absurd h h1
    | nilText _ h => rw [h] at h2; cases h2
    | text _ h => rw [h] at h2; cases h2
    | quoted _ _ h => rw [ih h1 (fun h => by rw [h2] at h; cases h) _ _ h4 h]

theorem skey_two {y : Val} (hstr : ∀ d s, (W.E d).kind = .string → y = .iface d (.str s) → TextSame o o' s)
    (ih : ∀ kt x b b', y = .iface kt x → KeyType W.E kt → (W.E kt).kind ≠ .string → Writes W M o kt (isPtrK (W.E kt).kind) false x b →
      Writes W M o' kt (isPtrK (W.E kt).kind) false x b' → b = b')
    (h : SyncKeyWrites W M o y b) (h' : SyncKeyWrites W M o' y b') : b = b' := by
  cases h with
  | str h1 h2 =>
    cases h' with
    | str _ h3 => rw [spelledAs_two (hstr _ _ h1 rfl) h2 h3]
    | text h => exact absurd h1 h
    | quoted h => rw [h] at h1; cases h1
  | text h1 h2 h4 =>
    cases h' with
    | str h => exact absurd h h1
    | text _ _ h => exact ih _ _ _ _ rfl (.inr (.inr h2)) h1 h4 h
    | quoted _ h => rw [h] at h2; cases h2
  | quoted h1 h2 h4 =>
    cases h' with
    | str h => rw [h] at h1; cases h1
    | text _ h => rw [h] at h2; cases h2
    | quoted _ _ h => rw [ih _ _ _ _ rfl (.inr (.inl ⟨_, h1⟩)) (by rw [h1]; simp) h4 h]

/-- Texts of the same elements, by two relations, are equal. -/
theorem texts_two {α β : Type} {R R' : α → β → Prop} {l : List α} {r r' : List β} (hl : r.length = l.length) (hl' : r'.length = l.length)
    (h : ∀ (i : Nat) x y, l[i]? = some x → r[i]? = some y → R x y) (h' : ∀ (i : Nat) x y, l[i]? = some x → r'[i]? = some y → R' x y)
    (hu : ∀ x ∈ l, ∀ y y', R x y → R' x y' → y = y') : r = r' := by
  refine List.ext_getElem (hl.trans hl'.symm) fun i h1 h2 => ?_
  have h3 : i < l.length := hl ▸ h1
  exact hu l[i] (List.getElem_mem _) _ _ (h i _ _ (List.getElem?_eq_getElem h3) (List.getElem?_eq_getElem h1))
    (h' i _ _ (List.getElem?_eq_getElem h3) (List.getElem?_eq_getElem h2))

set_option maxHeartbeats 1000000 in
theorem two_step (G : GoTypes W.E W.ptrTo) (hP : PathFree M) {n : Nat} (ih : SameBelow W M o o' n)
    (hn : sizeOf v = n) (ht : HasType W.E t v) (hd : KeysTold W M o t v) (hU : Unconcerned W o o' t ca v) (h : Writes W M o t ca q v b)
    (h' : Writes W M o' t ca q v b') : b = b' := by
  have part : ∀ {t' : TId} {v' : Val} {ca' q : Bool} {b b' : Bytes}, Part W.E t v t' v' → Encodes1 W o t ca v t' ca' v' → sizeOf v' < sizeOf v →
      Writes W M o t' ca' q v' b → Writes W M o' t' ca' q v' b' → b = b' := fun hp he hs h h' =>
    ih _ _ _ _ _ _ (hn ▸ hs) (part_type G ht hp) (hd.part (.step .refl hp)) (unconcerned_part hU he) h h'
  have hx : ¬ Concerned W o o' t ca v := hU _ _ _ .refl
  cases hs : (W.E t).special with
  | some s =>
    cases s with
    | time =>
      obtain ⟨x, rfl, -, h1⟩ := w_time hs h
      obtain ⟨x', e, -, h2⟩ := w_time hs h'
      cases e
      exact timeText_two (unconcerned_of fun hn => hx (.time hs hn)) h1 h2
    | duration =>
      obtain ⟨x, rfl, h1⟩ := w_duration hs h
      obtain ⟨x', e, h2⟩ := w_duration hs h'
      cases e
      exact durationText_two (unconcerned_of fun hn => hx (.duration hs hn)) h1 h2
    | number =>
      obtain ⟨x, rfl, h1⟩ := w_number hs h
      obtain ⟨x', e, h2⟩ := w_number hs h'
      cases e
      rw [h1, h2]
    | rawMessage =>
      rcases w_raw hs h with ⟨rfl, h1⟩ | ⟨vs, x, rfl, h1, h2⟩ <;> rcases w_raw hs h' with ⟨e, h1'⟩ | ⟨vs', x', e, h1', h2'⟩ <;> cases e
      · rw [h1, h1']
      · rw [asBytes_unique h1 h1'] at h2
        exact copiedAs_two (unconcerned_of fun hn => hx (.raw hs hn)) h2 h2'
    | syncMap =>
      obtain ⟨kvs, ms, ms', rfl, rfl, h1, h2, h3, h4, h5⟩ := w_smap hs h
      obtain ⟨kvs', mt, mt', e, rfl, h1', h2', h3', h4', h5'⟩ := w_smap hs h'
      cases e
      have small : ∀ {kv : Val × Val}, kv ∈ kvs → sizeOf kv.1 < sizeOf (Val.smap kvs) ∧ sizeOf kv.2 < sizeOf (Val.smap kvs) := by
        intro kv hkv
        have := List.sizeOf_lt_of_mem hkv
        have e : sizeOf kv = 1 + sizeOf kv.1 + sizeOf kv.2 := by cases kv; simp
        simp only [Val.smap.sizeOf_spec]
        omega
      have hdyn : ∀ kv ∈ kvs, ∃ d x, kv.2 = .iface d x := by
        intro kv hkv
        have hx : InIface W.E kv.2 := by
          cases ht with
          | smap _ _ hx => exact hx kv hkv
          | iface _ hx => cases hx
        rcases inIface_cases hx with e | ⟨d, x, e, -⟩
        · exact absurd e (h4 kv hkv)
        · exact ⟨d, x, e⟩
      have heq : ms = mt := by
        refine texts_two (R := fun (kv : Val × Val) (m : Bytes × Bytes) => SyncKeyWrites W M o kv.1 m.1 ∧
          ∀ d x, kv.2 = .iface d x → Writes W M o d (isPtrK (W.E d).kind) false x m.2)
          (R' := fun (kv : Val × Val) (m : Bytes × Bytes) => SyncKeyWrites W M o' kv.1 m.1 ∧
          ∀ d x, kv.2 = .iface d x → Writes W M o' d (isPtrK (W.E d).kind) false x m.2) h1 h1'
          (fun i kv m ha hb => ⟨h2 i kv m ha hb, fun d x => h3 i kv m d x ha hb⟩) (fun i kv m ha hb => ⟨h2' i kv m ha hb, fun d x => h3' i kv m d x ha hb⟩) ?_
        intro kv hkv m m' ⟨a1, a2⟩ ⟨b1, b2⟩
        obtain ⟨d, x, e⟩ := hdyn kv hkv
        refine Prod.ext (skey_two (fun d s hd he => unconcerned_of fun hn => hx (.skey hs hkv he hd hn)) (fun kt z c c' e hkt hks => part (.skey hkv e) (.skey hs hkv e hkt hks) ?_) a1 b1)
          (part (.selem hkv e) (.selem hs hkv e) ?_ (a2 d x e) (b2 d x e))
        · have := (small hkv).1
          rw [e] at this
          simp only [Val.iface.sizeOf_spec] at this
          omega
        · have := (small hkv).2
          rw [e] at this
          simp only [Val.iface.sizeOf_spec] at this
          omega
      subst heq
      have hord : OrderSame o o' ms.length := unconcerned_of fun hn => hx (.sorder hs (by rw [h1] at hn; exact hn))
      rw [inOrder_same hord (pairwise_texts (R := fun (kv : Val × Val) (m : Bytes × Bytes) => SyncKeyWrites W M o kv.1 m.1 ∧
        ∃ d z, kv.2 = .iface d z ∧ Writes W M o d (isPtrK (W.E d).kind) false z m.2) h1 (fun i kv m ha hb => ⟨h2 i kv m ha hb, by
          obtain ⟨d, z, e⟩ := hdyn kv (List.mem_of_getElem? ha)
          exact ⟨d, z, e, h3 i kv m d z ha hb e⟩⟩)
        ((hd.smap _ _ .refl).imp fun hab x y ⟨hx, d, z, e, hz⟩ ⟨hy, d', z', e', hz'⟩ he =>
          Prod.ext_iff.mpr (hab _ _ _ _ _ _ _ _ hx hy e e' hz hz' he))) h5 h5']
  | none =>
    rcases picks_or_byKind (ca := ca) hs with hb | ⟨m, hm⟩
    · by_cases hk : isBasicK (W.E t).kind = true
      · exact unconcerned_basic hb hk hx h h'
      · cases hkk : (W.E t).kind with
        | bool | int | float | string => rw [hkk] at hk; exact absurd rfl hk
        | other => exact absurd hkk (w_kind hb h)
        | ptr e =>
          rcases w_ptr hb hkk h with ⟨rfl, rfl⟩ | ⟨x, rfl, h1⟩ <;> rcases w_ptr hb hkk h' with ⟨e, rfl⟩ | ⟨x', e, h1'⟩ <;> cases e
          · rfl
          · exact part (.ptr hkk) (.ptr hb hkk) (by simp) h1 h1'
        | iface k =>
          have := w_tag hb hk (by simp [hkk]) h
          subst this
          rcases w_iface hb hkk h with ⟨rfl, rfl⟩ | ⟨d, x, rfl, h1⟩ <;> rcases w_iface hb hkk h' with ⟨e, rfl⟩ | ⟨d', x', e, h1'⟩ <;> cases e
          · rfl
          · exact part .iface (.iface hb hkk) (by simp only [Val.iface.sizeOf_spec]; omega) h1 h1'
        | slice e =>
          have := w_tag hb hk (by simp [hkk]) h
          subst this
          by_cases he : ByteElem W.E e
          · rcases w_bytes hb hkk he h with ⟨rfl, rfl⟩ | ⟨vs, x, c, rfl, rfl, h1, h2⟩ <;>
              rcases w_bytes hb hkk he h' with ⟨e, rfl⟩ | ⟨vs', x', c', e, rfl, h1', h2'⟩ <;> cases e
            · rfl
            · have hf : SameFlag .rawByteSlice o o' := unconcerned_of fun hn => hx (.bytes hb hkk he hn)
              rw [SameFlag] at hf
              rcases h2 with ⟨f, h2⟩ | ⟨f, h2⟩ <;> rcases h2' with ⟨f', h2'⟩ | ⟨f', h2'⟩
              · rw [asBytes_unique h1 h1'] at h2
                rw [base64_unique h2 h2']
              · rw [f, f'] at hf; cases hf
              · rw [f, f'] at hf; cases hf
              · have ht : TextSame o o' x := unconcerned_of fun hn => hx (.rawBytes hb hkk he f h1 hn)
                rw [← asBytes_unique h1 h1'] at h2'
                rw [spelledAs_two ht h2 h2']
          · rcases w_slice hb hkk he h with ⟨rfl, rfl⟩ | ⟨vs, bs, rfl, rfl, h1, h2⟩ <;>
              rcases w_slice hb hkk he h' with ⟨e, rfl⟩ | ⟨vs', bs', e, rfl, h1', h2'⟩ <;> cases e
            · have hf : SameFlag .nilSliceEmpty o o' := unconcerned_of fun hn => hx (.nilSlice hb hkk he hn)
              rw [SameFlag] at hf
              rw [hf]
            · rw [texts_two h1 h1' h2 h2' fun x hx y y' ha hb' => part (.slice hkk hx) (.slice hb hkk he hx) (by
                have := List.sizeOf_lt_of_mem hx
                simp only [Val.slice.sizeOf_spec]
                omega) ha hb']
        | array k e =>
          have := w_tag hb hk (by simp [hkk]) h
          subst this
          rcases w_array hb hkk h with ⟨vs, x, c, rfl, rfl, g1, g2, g3, g4⟩ | ⟨vs, bs, rfl, rfl, g1, g2, g3⟩ <;>
            rcases w_array hb hkk h' with ⟨vs', x', c', e', rfl, g1', g2', g3', g4'⟩ | ⟨vs', bs', e', rfl, g1', g2', g3'⟩ <;> cases e'
          · have ht : TextSame o o' x := unconcerned_of fun hn => hx (.byteArray hb hkk g1 g2 g3 hn)
            rw [← asBytes_unique g3 g3'] at g4'
            rw [spelledAs_two ht g4 g4']
          · have hf : SameFlag .byteArrayAsString o o' := unconcerned_of fun hn => hx (.array hb hkk g1 hn)
            rw [SameFlag, g2, g1' g1] at hf; cases hf
          · have hf : SameFlag .byteArrayAsString o o' := unconcerned_of fun hn => hx (.array hb hkk g1' hn)
            rw [SameFlag, g2', g1 g1'] at hf; cases hf
          · rw [texts_two g2 g2' g3 g3' fun x hx y y' ha hb' => part (.array hkk hx) (.array hb hkk (fun h => by rw [g1 h.1] at h; cases h.2) hx) (by
                have := List.sizeOf_lt_of_mem hx
                simp only [Val.array.sizeOf_spec]
                omega) ha hb']
        | map k e =>
          have := w_tag hb hk (by simp [hkk]) h
          subst this
          have hkt := (w_map hb hkk h).1
          rcases (w_map hb hkk h).2 with ⟨rfl, rfl⟩ | ⟨kvs, ms, ms', rfl, rfl, h1, h2, h3, h5⟩ <;>
            rcases (w_map hb hkk h').2 with ⟨e, rfl⟩ | ⟨kvs', mt, mt', e, rfl, h1', h2', h3', h5'⟩ <;> cases e
          · have hf : SameFlag .nilMapEmpty o o' := unconcerned_of fun hn => hx (.nilMap hb hkk hn)
            rw [SameFlag] at hf
            rw [hf]
          · have small : ∀ {kv : Val × Val}, kv ∈ kvs → sizeOf kv.1 < sizeOf (Val.map kvs) ∧ sizeOf kv.2 < sizeOf (Val.map kvs) := by
              intro kv hkv
              have := List.sizeOf_lt_of_mem hkv
              have e : sizeOf kv = 1 + sizeOf kv.1 + sizeOf kv.2 := by cases kv; simp
              simp only [Val.map.sizeOf_spec]
              omega
            have heq : ms = mt := by
              refine texts_two (R := fun (kv : Val × Val) (m : Bytes × Bytes) => KeyWrites W M o k kv.1 m.1 ∧ Writes W M o _ false false kv.2 m.2)
                (R' := fun (kv : Val × Val) (m : Bytes × Bytes) => KeyWrites W M o' k kv.1 m.1 ∧ Writes W M o' _ false false kv.2 m.2) h1 h1'
                (fun i kv m ha hb => ⟨h2 i kv m ha hb, h3 i kv m ha hb⟩) (fun i kv m ha hb => ⟨h2' i kv m ha hb, h3' i kv m ha hb⟩) ?_
              intro kv hkv m m' ⟨a1, a2⟩ ⟨b1, b2⟩
              exact Prod.ext (key_two (fun s hks he => unconcerned_of fun hn => hx (.key hb hkk hks hkv he hn))
                (fun hks hnil c c' => part (.key hkk hkv) (.key hb hkk hkt hks hnil hkv) (small hkv).1) a1 b1)
                (part (.elem hkk hkv) (.elem hb hkk hkt hkv) (small hkv).2 a2 b2)
            subst heq
            have hord : OrderSame o o' ms.length := unconcerned_of fun hn => hx (.order hb hkk (by rw [h1] at hn; exact hn))
            rw [inOrder_same hord (pairwise_texts (R := fun (kv : Val × Val) (m : Bytes × Bytes) => KeyWrites W M o k kv.1 m.1 ∧ Writes W M o _ false false kv.2 m.2) h1
              (fun i kv m ha hb => ⟨h2 i kv m ha hb, h3 i kv m ha hb⟩)
              ((hd.map _ _ _ _ .refl hkk).imp fun hab x y hx hy he => Prod.ext_iff.mpr (hab _ _ _ _ hx.1 hy.1 hx.2 hy.2 he))) h5 h5']
        | struct fs =>
          have := w_tag hb hk (by simp [hkk]) h
          subst this
          have hst : IsStruct W.E t := ⟨fs, hkk⟩
          obtain ⟨l, tried, kept, q', x, c, key, lead, a1, a2, a3, a4, a5, a6, a7, a8, a9, a10, rfl⟩ := w_struct hb hst h
          obtain ⟨l2, tried2, kept2, q2, x2, c2, key2, lead2, b1, b2, b3, b4, b5, b6, b7, b8, b9, b10, rfl⟩ := w_struct hb hst h'
          cases membersOf_unique a1 b1
          have hnd := membersOf_nodup a1
          cases sublist_unique hnd a2 b2 fun m hm => by rw [a3 m hm, b3 m hm, leftOut_same hb hst ((a1.2 m).mp hm) hx]
          have hc : ∀ m ∈ tried, c m = c2 m := by
            intro m hm
            have e1 := fieldAt_unique (a4 m hm) (b4 m hm)
            have e2 : q' m = q2 m := Bool.eq_iff_iff.mpr ((a5 m hm).trans (b5 m hm).symm)
            have w1 := a6 m hm
            have w2 := b6 m hm
            rw [← e1, ← e2] at w2
            have hch := (a1.2 m).mp (a2.subset hm)
            obtain ⟨_, _, _, _, _, hpath, hprom, -⟩ := hch
            have hw := fieldAt_type G (a4 m hm) hst ht (promoted_type hst hprom)
            exact ih _ _ _ _ _ _ (hn ▸ fieldAt_size (a4 m hm)) hw.1 (hd.part hw.2)
              (unconcerned_part hU (.field hb hst ((a1.2 m).mp (a2.subset hm)) ((a3 m (a2.subset hm)).mp hm) (a4 m hm))) w1 w2
          cases sublist_unique (hnd.sublist a2) a7 b7 fun m hm => by rw [a8 m hm, b8 m hm, hc m hm]
          rw [lead_unique a10 b10]
          have : kept.map (fun m => b! "\"" ++ key m ++ b! "\":" ++ c m) = kept.map (fun m => b! "\"" ++ key2 m ++ b! "\":" ++ c2 m) :=
            List.map_congr_left fun m hm => by
              have hm1 := a7.subset hm
              have hm2 := a2.subset hm1
              rw [namedAs_two (unconcerned_of fun hn => hx (.name hb hst ((a1.2 m).mp hm2) ((a3 m hm2).mp hm1) hn)) (a9 m hm) (b9 m hm), hc m hm1]
          rw [this]
    · exact unconcerned_meth hP hs hm hx h h'

/-- C75: the text of a value is the same under settings that differ in nothing that is about a part of
it that is encoded. -/
theorem C75_text (G : GoTypes W.E W.ptrTo) (hP : PathFree M) (ht : HasType W.E t v) (hd : KeysTold W M o t v) (hU : Unconcerned W o o' t ca v)
    (h : Writes W M o t ca q v b) (h' : Writes W M o' t ca q v b') : b = b' := by
  have key : ∀ n, SameBelow W M o o' n := by
    intro n
    induction n with
    | zero => intro _ _ _ _ _ _ h; exact absurd h (Nat.not_lt_zero _)
    | succ n ihn =>
      intro t ca q v b b' hl ht hd hU h h'
      exact two_step G hP (n := sizeOf v) (fun _ _ _ _ _ _ hs => ihn _ _ _ _ _ _ (by omega)) rfl ht hd hU h h'
  exact key _ _ _ _ _ _ _ (Nat.lt_succ_self _) ht hd hU h h'

/-! ## Errors -/

theorem encodes1_two {t' : TId} {ca' : Bool} {v' : Val} (hx : ¬ Concerned W o o' t ca v) (h : Encodes1 W o' t ca v t' ca' v') : Encodes1 W o t ca v t' ca' v' := by
  cases h with
  | ptr h1 h2 => exact .ptr h1 h2
  | iface h1 h2 => exact .iface h1 h2
  | slice h1 h2 h3 h4 => exact .slice h1 h2 h3 h4
  | array h1 h2 h3 h4 =>
    refine .array h1 h2 (fun ⟨g1, g2⟩ => h3 ⟨g1, ?_⟩) h4
    have hf : SameFlag .byteArrayAsString o o' := unconcerned_of fun hn => hx (.array h1 h2 g1 hn)
    exact hf ▸ g2
  | key h1 h2 h3 h4 h5 h6 => exact .key h1 h2 h3 h4 h5 h6
  | elem h1 h2 h3 h4 => exact .elem h1 h2 h3 h4
  | field h1 h2 h3 h4 h5 => exact .field h1 h2 h3 (fun h => h4 ((leftOut_same h1 h2 h3 hx).mp h)) h5
  | skey h1 h2 h3 h4 h5 => exact .skey h1 h2 h3 h4 h5
  | selem h1 h2 h3 => exact .selem h1 h2 h3

theorem encodes_two {t' : TId} {ca' : Bool} {v' : Val} (h : Encodes W o' t ca v t' ca' v') (hU : Unconcerned W o o' t ca v) : Encodes W o t ca v t' ca' v' := by
  induction h with
  | refl => exact .refl
  | step h1 _ ih =>
    have h2 := encodes1_two (hU _ _ _ .refl) h1
    exact .step h2 (ih (unconcerned_part hU h2))

theorem argCtx_two {m : MethKind} (h : m = .appendCtx → o.ctx = o'.ctx) : argCtx o' m = argCtx o m := by
  cases m with
  | appendCtx => exact (h rfl).symm
  | _ => rfl

theorem fault_two {e : Err} (hx : ¬ Concerned W o o' t ca v) (h : Fault W M o' t ca v e) : Fault W M o t ca v e := by
  have dur : (W.E t).special = some .duration → ∀ {x}, v = .int x → o.durFmt = o'.durFmt := fun hs _ e => by
    subst e
    exact unconcerned_of fun hn => hx (.duration hs hn)
  cases h with
  | float h1 h2 h3 => exact .float h1 h2 h3
  | seconds h1 h2 h3 => exact .seconds h1 (by rw [dur h1 rfl]; exact h2) h3
  | minutes h1 h2 h3 => exact .minutes h1 (by rw [dur h1 rfl]; exact h2) h3
  | number h1 h2 h3 h4 =>
    have hf : SameFlag .noNumberValidation o o' := unconcerned_of fun hn => hx (.number h1 h3 h4 hn)
    exact .number h1 (by rw [hf]; exact h2) h3 h4
  | time h1 h2 => exact .time h1 h2
  | typ h1 h2 => exact .typ h1 h2
  | method h1 h2 h3 h4 =>
    exact .method h1 h2 h3 (by rw [← argCtx_two (o := o) (o' := o') (by rintro rfl; exact unconcerned_of fun hn => hx (.ctx h1 h2 h3 hn))]; exact h4)
  | malformed h1 h2 h3 h4 h5 h6 =>
    have hf : CopySame o o' := unconcerned_of fun hn => hx (.json h1 h2 h3 hn)
    exact .malformed h1 h2 h3 h4 (by rw [hf.1]; exact h5) h6
  | nilKey h1 h2 h3 => exact .nilKey h1 h2 h3
  | badKey h1 h2 h3 h4 => exact .badKey h1 h2 h3 h4

theorem shortKey_two (hx : ¬ Concerned W o o' t ca v) (h : ShortKey W M o' t ca v) : ShortKey W M o t ca v := by
  cases h with
  | time h1 h2 h3 h4 h5 h6 =>
    have hf : TimeSame o o' := unconcerned_of fun hn => hx (.time h2 hn)
    exact .time h1 h2 (by rw [hf.1]; exact h3) h4 h5 h6
  | append h1 h2 h3 h4 h5 h6 h7 =>
    exact .append h1 h2 h3 h4 h5 (by rw [← argCtx_two (o := o) (o' := o') (by rintro rfl; exact unconcerned_of fun hn => hx (.ctx h2 h3 h5 hn))]; exact h6) h7
  | verbatim h1 h2 h3 h4 h5 h6 h7 =>
    have hf : CopySame o o' := unconcerned_of fun hn => hx (.json h2 h3 h4 hn)
    exact .verbatim h1 h2 h3 h4 h5 (by rw [hf.1]; exact h6) h7
  | json h1 h2 h3 h4 h5 h6 h7 h8 =>
    have hf : CopySame o o' := unconcerned_of fun hn => hx (.json h2 h3 h4 hn)
    exact .json h1 h2 h3 h4 h5 (by rw [hf.1]; exact h6) h7 h8

theorem shortKey_nil (h : ShortKey W M o t false v) (hp : IsPtr W.E t) : v ≠ .nil := by
  have key : ∀ {m : MethKind} {rt : TId} {x : Val} {u : TId}, Picks W.E t false m → Receives W.E W.ptrTo t m v rt x u → v ≠ .nil := by
    intro m rt x u h1 h2
    cases h2 with
    | own _ _ h => exact h hp
    | dyn => simp
    | addr h => exact absurd (h1.1.resolve_right fun h => by cases h.1) h
  cases h with
  | time => simp
  | append _ _ h3 _ h5 => exact key h3 h5
  | verbatim _ _ h3 h4 => exact key h3 h4
  | json _ _ h3 h4 => exact key h3 h4

theorem shortKey_text (h : ShortKey W M o t ca v) : (W.E t).meths.text = true := by
  cases h <;> assumption

theorem trap_two (hU : Unconcerned W o o' t ca v) (h : Trap W M o' t ca v) : Trap W M o t ca v := by
  have hx : ¬ Concerned W o o' t ca v := hU _ _ _ .refl
  have ord : ∀ {n : Nat}, 0 < n → OrderSame o o' n → bmHas o'.flags .unsortedMap = false → bmHas o.flags .unsortedMap = false := by
    intro n hn h he
    rcases h with h | ⟨h, -⟩
    · omega
    · rw [h]; exact he
  cases h with
  | nilElem h1 h2 h3 => exact .nilElem h1 h2 h3
  | method h1 h2 h3 h4 =>
    exact .method h1 h2 h3 (by rw [← argCtx_two (o := o) (o' := o') (by rintro rfl; exact unconcerned_of fun hn => hx (.ctx h1 h2 h3 hn))]; exact h4)
  | key h1 h2 h3 h4 h5 h6 =>
    have he := Encodes1.key (o := o) h1 h2 (.inr (.inr (shortKey_text h6))) h3 (fun _ => shortKey_nil h6) h5
    exact .key h1 h2 h3 (ord (List.length_pos_of_mem h5) (unconcerned_of fun hn => hx (.order h1 h2 hn)) h4) h5 (shortKey_two (unconcerned_part hU he _ _ _ .refl) h6)
  | skey h1 h2 h3 h4 h5 h6 =>
    have he := Encodes1.skey (o := o) (ca := ca) h1 h3 h4 (.inr (.inr (shortKey_text h6))) h5
    exact .skey h1 (ord (List.length_pos_of_mem h3) (unconcerned_of fun hn => hx (.sorder h1 hn)) h2) h3 h4 h5 (shortKey_two (unconcerned_part hU he _ _ _ .refl) h6)

theorem encodes_trans {t1 t2 : TId} {c1 c2 : Bool} {v1 v2 : Val} (h : Encodes W o t ca v t1 c1 v1) (h' : Encodes W o t1 c1 v1 t2 c2 v2) :
    Encodes W o t ca v t2 c2 v2 := by
  induction h with
  | refl => exact h'
  | step h1 _ ih => exact .step h1 (ih h')

theorem faultless_two (hU : Unconcerned W o o' t (isPtrK (W.E t).kind) v) (h : Faultless W M o t v) : Faultless W M o' t v := by
  intro t' ca' v' he
  have he' := encodes_two he hU
  obtain ⟨h1, h2⟩ := h t' ca' v' he'
  have hU' : Unconcerned W o o' t' ca' v' := fun _ _ _ hp => hU _ _ _ (encodes_trans he' hp)
  exact ⟨fun e hf => h1 e (fault_two (hU' _ _ _ .refl) hf), fun ht => h2 (trap_two hU' ht)⟩

/-! ## Both ways -/

theorem sameFlag_symm {f : Flag} (h : SameFlag f o o') : SameFlag f o' o := Eq.symm h

theorem textSame_symm {s : Bytes} (h : TextSame o o' s) : TextSame o' o s := by
  rcases h with h | ⟨h1, h2⟩
  · exact .inl h
  · refine .inr ⟨sameFlag_symm h1, fun he => ?_⟩
    obtain ⟨h3, h4⟩ := h2 (h1.trans he)
    exact ⟨h3.imp sameFlag_symm id, h4.imp sameFlag_symm id⟩

theorem nameSame_symm {s : Bytes} (h : NameSame o o' s) : NameSame o' o s := h.imp sameFlag_symm id

theorem copySame_symm (h : CopySame o o') : CopySame o' o := ⟨sameFlag_symm h.1, fun he => sameFlag_symm (h.2 (h.1.trans he))⟩

theorem timeSame_symm (h : TimeSame o o') : TimeSame o' o := ⟨sameFlag_symm h.1, fun he => (h.2 (h.1.trans he)).symm⟩

theorem orderSame_symm {n : Nat} (h : OrderSame o o' n) : OrderSame o' o n :=
  h.imp id fun ⟨h1, h2⟩ => ⟨sameFlag_symm h1, h2.imp id fun h => h1.symm.trans h⟩

theorem not_concerned_symm (hx : ¬ Concerned W o o' t ca v) : ¬ Concerned W o' o t ca v := by
  intro h
  cases h with
  | time h1 h2 => exact hx (.time h1 fun h => h2 (timeSame_symm h))
  | duration h1 h2 => exact hx (.duration h1 (Ne.symm h2))
  | number h1 h2 h3 h4 => exact hx (.number h1 h2 h3 fun h => h4 (sameFlag_symm h))
  | raw h1 h2 => exact hx (.raw h1 fun h => h2 (copySame_symm h))
  | skey h1 h2 h3 h4 h5 => exact hx (.skey h1 h2 h3 h4 fun h => h5 (textSame_symm h))
  | sorder h1 h2 => exact hx (.sorder h1 fun h => h2 (orderSame_symm h))
  | ctx h1 h2 h3 h4 => exact hx (.ctx h1 h2 h3 (Ne.symm h4))
  | json h1 h2 h3 h4 => exact hx (.json h1 h2 h3 fun h => h4 (copySame_symm h))
  | str h1 h2 h3 => exact hx (.str h1 h2 fun h => h3 (textSame_symm h))
  | bytes h1 h2 h3 h4 => exact hx (.bytes h1 h2 h3 fun h => h4 (sameFlag_symm h))
  | rawBytes h1 h2 h3 h4 h5 h6 =>
    have hf : SameFlag .rawByteSlice o o' := unconcerned_of fun hn => hx (.bytes h1 h2 h3 hn)
    exact hx (.rawBytes h1 h2 h3 (hf.trans h4) h5 fun h => h6 (textSame_symm h))
  | nilSlice h1 h2 h3 h4 => exact hx (.nilSlice h1 h2 h3 fun h => h4 (sameFlag_symm h))
  | array h1 h2 h3 h4 => exact hx (.array h1 h2 h3 fun h => h4 (sameFlag_symm h))
  | byteArray h1 h2 h3 h4 h5 h6 =>
    have hf : SameFlag .byteArrayAsString o o' := unconcerned_of fun hn => hx (.array h1 h2 h3 hn)
    exact hx (.byteArray h1 h2 h3 (hf.trans h4) h5 fun h => h6 (textSame_symm h))
  | nilMap h1 h2 h3 => exact hx (.nilMap h1 h2 fun h => h3 (sameFlag_symm h))
  | key h1 h2 h3 h4 h5 h6 => exact hx (.key h1 h2 h3 h4 h5 fun h => h6 (textSame_symm h))
  | order h1 h2 h3 => exact hx (.order h1 h2 fun h => h3 (orderSame_symm h))
  | lists h1 h2 h3 h4 => exact hx (.lists h1 h2 h3 fun h => h4 h.symm)
  | name h1 h2 h3 h4 h5 => exact hx (.name h1 h2 h3 (fun h => h4 ((leftOut_same h1 h2 h3 hx).mp h)) fun h => h5 (nameSame_symm h))

theorem unconcerned_symm (hU : Unconcerned W o o' t ca v) : Unconcerned W o' o t ca v :=
  fun _ _ _ he => not_concerned_symm (hU _ _ _ (encodes_two he hU))

/-! ## Calls -/

/-- C75: of two calls with options that differ in nothing that is about an encoded part of the value,
both succeed or none does, and then with the same text. -/
theorem C75_same {g n : Nat} {S : List TId} {c : Call} (hc : FiniteCall W g n c S M) (D : FaultReady (c.world W) c.heap M) (D' : WriteReady (c.world W) c.heap M)
    (hP : PathFree M) {w : Addr} (hv : c.value = some (t, w)) (hx : ReprE W.E c.heap.mem (some (t, w)) (.iface t v)) (hf : TimesFine (c.world W) t v)
    (hd : KeysTold (c.world W) M o t v) {opts opts' : List (Option Opt)} (ho : prepare opts = .ok o) (ho' : prepare opts' = .ok o')
    (hU : Unconcerned (c.world W) o o' t (isPtrK (W.E t).kind) v) (b : Bytes) :
    marshalOpts (c.world W) c.heap n (some (t, w)) opts = .ret (some b) none ↔ marshalOpts (c.world W) c.heap n (some (t, w)) opts' = .ret (some b) none := by
  have ht : HasType W.E t v := by
    cases repr_inIface hx with
    | val h => exact h
  have eq : ∀ b b', marshalOpts (c.world W) c.heap n (some (t, w)) opts = .ret (some b) none → marshalOpts (c.world W) c.heap n (some (t, w)) opts' = .ret (some b') none → b = b' :=
    fun b b' h h' => C75_text D'.ready.types hP ht hd hU ((C56_bytes D' hx hf ho).1 b h) ((C56_bytes D' hx hf ho').1 b' h')
  constructor
  · intro h
    obtain ⟨b', h'⟩ := (C51_iff hc D hP hv hx ho').mpr (faultless_two hU ((C51_iff hc D hP hv hx ho).mp ⟨b, h⟩))
    rw [eq _ _ h h']; exact h'
  · intro h'
    obtain ⟨b', h⟩ := (C51_iff hc D hP hv hx ho).mpr (faultless_two (unconcerned_symm hU) ((C51_iff hc D hP hv hx ho').mp ⟨b, h'⟩))
    rw [← eq _ _ h h']; exact h

/-- C75: and an error is about a part that is encoded under both, which is at fault for the same reason
under both. -/
theorem C75_error {H : Heap} (D : FaultReady W H M) {w : Addr} (hx : ReprE W.E H.mem (some (t, w)) (.iface t v)) {opts : List (Option Opt)}
    (ho : prepare opts = .ok o') (hU : Unconcerned W o o' t (isPtrK (W.E t).kind) v) {n : Nat} {r : Option Bytes} {e : Err}
    (h : marshalOpts W H n (some (t, w)) opts = .ret r (some (.encoding e))) :
    ∃ t' ca' v', Encodes W o t (isPtrK (W.E t).kind) v t' ca' v' ∧ Encodes W o' t (isPtrK (W.E t).kind) v t' ca' v' ∧ Fault W M o t' ca' v' e ∧ Fault W M o' t' ca' v' e := by
  obtain ⟨t', ca', v', h1, h2⟩ := C51_cause D hx ho n [] (.inl ⟨_, h⟩)
  have h3 := encodes_two h1 hU
  exact ⟨t', ca', v', h3, h1, fault_two (hU _ _ _ h3) h2, h2⟩

/-- C75 for calls that may not end and for AppendOpts: two that succeed have the same text. -/
theorem C75_calls {H : Heap} (D : WriteReady W H M) (hP : PathFree M) {w : Addr} (hx : ReprE W.E H.mem (some (t, w)) (.iface t v))
    (hf : TimesFine W t v) (hd : KeysTold W M o t v) {opts opts' : List (Option Opt)} (ho : prepare opts = .ok o) (ho' : prepare opts' = .ok o')
    (hU : Unconcerned W o o' t (isPtrK (W.E t).kind) v) {n n' : Nat} :
    (∀ b b', marshalOpts W H n (some (t, w)) opts = .ret (some b) none → marshalOpts W H n' (some (t, w)) opts' = .ret (some b') none → b = b') ∧
    (∀ dst dst' out out', appendOpts W H n dst (some (t, w)) opts = .ret (some out) none →
      appendOpts W H n' dst' (some (t, w)) opts' = .ret (some out') none → ∃ b, out = dst ++ b ∧ out' = dst' ++ b) := by
  have ht : HasType W.E t v := by
    cases repr_inIface hx with
    | val h => exact h
  refine ⟨fun b b' h h' => C75_text D.ready.types hP ht hd hU ((C56_bytes D hx hf ho).1 b h) ((C56_bytes D hx hf ho').1 b' h'), ?_⟩
  intro dst dst' out out' h h'
  obtain ⟨b, e, g⟩ := (C56_bytes D hx hf ho).2 dst out h
  obtain ⟨b', e', g'⟩ := (C56_bytes D hx hf ho').2 dst' out' h'
  exact ⟨b, e, by rw [e', C75_text D.ready.types hP ht hd hU g g']⟩

end Jettison.Props
