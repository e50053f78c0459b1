import Verif.Spec.Mapped
import Verif.Props.Compose
import Verif.Props.Respell
import Verif.Props.Std
import Verif.Proofs.Alphabet

/-!
# C82: a struct is encoded as the map with its members
-/

namespace Jettison.Props
open Jettison Jettison.Spec Jettison.Model Jettison.Proofs

variable {W : World} {M : MethV} {o : EncOpts} {t : TId} {ca q : Bool} {v : Val} {b : Bytes}

theorem marked_bytes {s r : Bytes} (h : Marked s r) : ∀ x : Bytes, (∀ y ∈ x, 0x80 ≤ y.toNat ∧ y ≠ 0xE2) → Marked (x ++ s) (x ++ r)
  | [], _ => h
  | y :: x, hx => by
    refine .other ?_ ?_ (marked_bytes h x fun z hz => hx z (List.mem_cons_of_mem _ hz))
    · have := (hx y List.mem_cons_self).1
      rintro (rfl | rfl | rfl) <;> exact absurd this (by decide)
    · intro hs
      obtain ⟨z, hz⟩ := sep_not_html hs
      exact (hx y List.mem_cons_self).2 (List.cons.inj hz).1

theorem marked_char {s r : Bytes} (h : Marked s r) {cp : Nat} (h1 : IsScalar cp) (h2 : 0x80 ≤ cp) (h3 : cp ≠ 0x2028 ∧ cp ≠ 0x2029) :
    Marked (utf8Encode cp ++ s) (utf8Encode cp ++ r) := by
  obtain ⟨c, x, e, hc, hx⟩ := encode_parts h1 h2
  have hs : ¬ SepFirst (utf8Encode cp ++ s) := by
    rintro (⟨z, hz⟩ | ⟨z, hz⟩)
    · exact h3.1 (utf8Encode_inj (by decide) h1 hz).1.symm
    · exact h3.2 (utf8Encode_inj (by decide) h1 hz).1.symm
  rw [e] at hs ⊢
  refine .other ?_ hs (marked_bytes h x hx)
  rintro (rfl | rfl | rfl) <;> exact absurd hc (by decide)

theorem plain_spelling (html coerce : Bool) : ∀ cps : List Nat,
    (∀ c ∈ cps, IsScalar c ∧ 0x20 ≤ c ∧ c ≠ 0x22 ∧ c ≠ 0x5C ∧ c ≠ 0x2028 ∧ c ≠ 0x2029) →
    ∃ r, Spelling html coerce (cps.flatMap utf8Encode) r ∧ (html = true → Marked (cps.flatMap utf8Encode) r) ∧ (html = false → r = cps.flatMap utf8Encode)
  | [], _ => ⟨[], .nil, fun _ => .nil, fun _ => rfl⟩
  | c :: cps, h => by
    obtain ⟨r, h1, h2, h3⟩ := plain_spelling html coerce cps fun d hd => h d (List.mem_cons_of_mem _ hd)
    obtain ⟨k1, k2, k3, k4, k5, k6⟩ := h c List.mem_cons_self
    rw [List.flatMap_cons]
    by_cases hc : c < 0x80
    · rw [utf8Encode_ascii hc]
      have e : (UInt8.ofNat c).toNat = c := by simp; omega
      have hq : UInt8.ofNat c ≠ c! '"' := fun h => k3 (by rw [← e, h]; rfl)
      have hb : UInt8.ofNat c ≠ c! '\\' := fun h => k4 (by rw [← e, h]; rfl)
      by_cases hh : IsHtml (UInt8.ofNat c)
      · cases html with
        | true => exact ⟨_, .html rfl hh h1, fun _ => .html hh (h2 rfl), fun h => by cases h⟩
        | false => exact ⟨_, .ascii (by omega) (by omega) hq hb (fun h => by cases h) h1, (fun h => by cases h), fun _ => by rw [h3 rfl]⟩
      · exact ⟨_, .ascii (by omega) (by omega) hq hb (fun _ => hh) h1, fun hm => .other hh (not_sep (by omega)) (h2 hm), fun hm => by rw [h3 hm]⟩
    · exact ⟨_, .char k1 (by omega) (fun _ => ⟨k5, k6⟩) h1, fun hm => marked_char (h2 hm) k1 (by omega) ⟨k5, k6⟩, fun hm => by rw [h3 hm]⟩

/-- Plain names are spelled the same as the name of a field and as a string. -/
theorem name_spelled {s r : Bytes} (hn : PlainName s) (ho : bmHas o.flags .noStringEscaping = true → bmHas o.flags .noHTMLEscaping = true) :
    NamedAs o s r ↔ SpelledAs o s r := by
  have key : ∃ r, NamedAs o s r ∧ SpelledAs o s r := by
    obtain ⟨cps, hc, rfl⟩ := hn
    cases hs : bmHas o.flags .noStringEscaping with
    | true => exact ⟨_, .raw (ho hs), .raw hs⟩
    | false =>
      obtain ⟨r, h1, h2, h3⟩ := plain_spelling (!bmHas o.flags .noHTMLEscaping) (!bmHas o.flags .noUTF8Coercion) cps hc
      refine ⟨r, ?_, .escaped hs h1⟩
      cases hh : bmHas o.flags .noHTMLEscaping with
      | true => rw [h3 (by rw [hh]; rfl)]; exact .raw hh
      | false => exact .marked hh (h2 (by rw [hh]; rfl))
  obtain ⟨r', h1, h2⟩ := key
  exact ⟨fun h => namedAs_unique h h1 ▸ h2, fun h => spelledAs_unique h h2 ▸ h1⟩

/-- A member and the entry for it have the same texts. -/
theorem boxed_writes {e d : TId} (he : DynType W.E e) (hd : IsIface W.E d → DynType W.E d) {x y : Val} (h : Boxed W.E d x y) :
    Writes W M o d false false x b ↔ Writes W M o e false false y b := by
  rw [held_writes he]
  cases h with
  | held hi => exact held_writes (hd hi)
  | value hi =>
    have : Writes W M o d false false x b ↔ Writes W M o d (isPtrK (W.E d).kind) false x b := by
      cases hp : isPtrK (W.E d).kind with
      | false => exact Iff.rfl
      | true =>
        have : IsPtr W.E d := by
          revert hp
          cases hk : (W.E d).kind <;> intro hp <;> first | exact ⟨_, hk⟩ | cases hp
        exact ⟨writes_ptr_ca this, writes_ptr_ca this⟩
    rw [this]
    constructor
    · exact fun h => .value h
    · intro h; cases h with | value h => exact h

/-- The members of the text of such a struct. -/
theorem likeMap_struct (hL : LikeMap W t) (h : Writes W M o t false false v b) :
    ∃ (l tried : List MField) (x : MField → Val) (c key : MField → Bytes), MembersOf W.U.isLetter W.U.isDigit W.E t l ∧ tried.Sublist l ∧
      (∀ m ∈ l, m ∈ tried ↔ ¬ LeftOut o v m) ∧ (∀ m ∈ tried, FieldAt v m.path (x m)) ∧ (∀ m ∈ tried, Writes W M o m.decl.typ false false (x m) (c m)) ∧
      (∀ m ∈ tried, NamedAs o m.name (key m)) ∧ b = objectOf (tried.map fun m => (b! "\"" ++ key m ++ b! "\"", c m)) := by
  obtain ⟨hs, hb, hl⟩ := hL
  obtain ⟨l, tried, kept, q', x, c, key, lead, a1, a2, a3, a4, a5, a6, a7, a8, a9, a10, rfl⟩ := w_struct hb hs h
  have hm : ∀ m ∈ tried, LikeEntry W.E m := fun m hm => hl m ((a1.2 m).mp (a2.subset hm))
  have hk : kept = tried := by
    have : ∀ m ∈ tried, m ∈ kept := fun m hm' => (a8 m hm').mpr fun h => (hm m hm').kept ⟨h.1, h.2.1⟩
    exact sublist_unique ((membersOf_nodup a1).sublist a2) a7 (List.Sublist.refl _) fun m hm => by simp [this m hm, hm]
  subst hk
  have hl : lead = [] := lead_unique a10 (.none (.inr rfl))
  subst hl
  refine ⟨l, kept, x, c, key, a1, a2, a3, a4, fun m hm' => ?_, a9, ?_⟩
  · have h6 := a6 m hm'
    have hq : q' m = false := by
      cases h : q' m with
      | false => rfl
      | true => exact absurd ((a5 m hm').mp h) (hm m hm').plain
    rwa [hq] at h6
  · simp [objectOf, Function.comp_def]

/-- C82: if `b` is the text of the struct, the text of the map with its members is that of the same members, in the order of maps. -/
theorem C82_map (hL : LikeMap W t) {t' : TId} (hA : AnyMap W t') {kvs : List (Val × Val)} (hm : MemberMap W o t v kvs)
    (ho : bmHas o.flags .noStringEscaping = true → bmHas o.flags .noHTMLEscaping = true) (h : Writes W M o t false false v b) :
    ∃ ms, b = objectOf ms ∧ (∀ m ∈ ms, 2 ≤ m.1.length) ∧ ∀ ms', InOrder o ms ms' → Writes W M o t' false false (.map kvs) (objectOf ms') := by
  obtain ⟨l, tried, x, c, key, a1, a2, a3, a4, a5, a6, rfl⟩ := likeMap_struct hL h
  obtain ⟨l', shown, b1, b2, b3, b4, b5⟩ := hm
  cases membersOf_unique a1 b1
  obtain ⟨hb, k, e, hk, hks, he⟩ := hA
  have hin : ∀ m, m ∈ tried ↔ m ∈ shown := fun m => by
    rw [b3]
    exact ⟨fun h => ⟨a2.subset h, (a3 m (a2.subset h)).mp h⟩, fun h => (a3 m h.1).mpr h.2⟩
  have hperm : tried.Perm shown := (List.perm_ext_iff_of_nodup ((membersOf_nodup a1).sublist a2) b2).mpr hin
  refine ⟨_, rfl, ?_, fun ms' ⟨h1, h2⟩ => ?_⟩
  · intro m hm
    obtain ⟨m, -, rfl⟩ := List.mem_map.mp hm
    simp
  refine .map (ms := shown.map fun m => (b! "\"" ++ key m ++ b! "\"", c m)) hb hk (.inl hks) (by rw [List.length_map, b4]) ?_ ?_ ⟨h1.trans (hperm.map _), h2⟩
  all_goals
    intro i kv m hi hj
    rw [List.getElem?_map, Option.map_eq_some_iff] at hj
    obtain ⟨m, hj, rfl⟩ := hj
    obtain ⟨c1, y, c2, c3⟩ := b5 i m kv hj hi
    have hmem : m ∈ tried := (hin m).mpr (List.mem_of_getElem? hj)
    have hE := hL.2.2 m ((a1.2 m).mp (a2.subset hmem))
  · rw [c1]
    exact .str hks ((name_spelled hE.name ho).mp (a6 m hmem))
  · cases fieldAt_unique c2 (a4 m hmem)
    exact (boxed_writes he hE.iface c3).mp (a5 m hmem)

/-- C82: and the other way round. -/
theorem C82_struct (hL : LikeMap W t) {t' : TId} (hA : AnyMap W t') {kvs : List (Val × Val)} (hm : MemberMap W o t v kvs)
    (ho : bmHas o.flags .noStringEscaping = true → bmHas o.flags .noHTMLEscaping = true) (h : Writes W M o t' false false (.map kvs) b) :
    ∃ ms ms', b = objectOf ms' ∧ InOrder o ms ms' ∧ Writes W M o t false false v (objectOf ms) := by
  classical
  obtain ⟨l, shown, b1, b2, b3, b4, b5⟩ := hm
  obtain ⟨hb, k, e, hk, hks, he⟩ := hA
  obtain ⟨-, ⟨h0, -⟩ | ⟨kvs', ms, ms', h0, rfl, h1, h2, h3, h4, h5⟩⟩ := w_map hb hk h
  · cases h0
  cases h0
  have hE : ∀ m ∈ shown, LikeEntry W.E m := fun m hm => hL.2.2 m ((b1.2 m).mp ((b3 m).mp hm).1)
  obtain ⟨f, hf⟩ := exists_fun (([], [], .nil) : Bytes × Bytes × Val) (l := shown) (R := fun m z => FieldAt v m.path z.2.2 ∧ NamedAs o m.name z.1 ∧
      Writes W M o m.decl.typ false false z.2.2 z.2.1 ∧ ∃ i : Nat, shown[i]? = some m ∧ ms[i]? = some (b! "\"" ++ z.1 ++ b! "\"", z.2.1)) (by
    intro m hm
    obtain ⟨i, hi⟩ := List.getElem?_of_mem hm
    have hlt : i < shown.length := (List.getElem?_eq_some_iff.mp hi).1
    have hkv := List.getElem?_eq_getElem (l := kvs) (i := i) (by omega)
    have hms := List.getElem?_eq_getElem (l := ms) (i := i) (by omega)
    obtain ⟨c1, y, c2, c3⟩ := b5 i m _ hi hkv
    have d1 := h2 i _ _ hkv hms
    have d2 := h3 i _ _ hkv hms
    rw [c1] at d1
    generalize ms[i] = z at hms d1 d2
    obtain ⟨z1, z2⟩ := z
    simp only at d1 d2
    cases d1 with
    | str _ hsp => exact ⟨(_, z2, y), c2, (name_spelled (hE m hm).name ho).mpr hsp, (boxed_writes he (hE m hm).iface c3).mpr d2, i, hi, hms⟩
    | text h | quoted h => exact absurd hks h)
  have hmap : shown.map (fun m => (b! "\"" ++ (f m).1 ++ b! "\"", (f m).2.1)) = ms := by
    apply List.ext_getElem?
    intro i
    rw [List.getElem?_map]
    cases hi : shown[i]? with
    | none =>
      have := List.getElem?_eq_none_iff.mp hi
      rw [Option.map_none, List.getElem?_eq_none (by omega)]
    | some m =>
      obtain ⟨-, -, -, j, hj, hj'⟩ := hf m (List.mem_of_getElem? hi)
      have : i = j := by
        exact (List.getElem?_inj (List.getElem?_eq_some_iff.mp hi).1 b2).mp (hi.trans hj.symm)
      subst this
      rw [hj', Option.map_some]
  have hin : ∀ m, m ∈ l.filter (fun m => decide (m ∈ shown)) ↔ m ∈ shown := fun m => by
    simp only [List.mem_filter, decide_eq_true_eq, and_iff_right_iff_imp]
    exact fun h => ((b3 m).mp h).1
  have hsub : (l.filter (fun m => decide (m ∈ shown))).Sublist l := List.filter_sublist
  generalize l.filter (fun m => decide (m ∈ shown)) = tried at hin hsub
  have hperm : tried.Perm shown := (List.perm_ext_iff_of_nodup ((membersOf_nodup b1).sublist hsub) b2).mpr hin
  refine ⟨tried.map (fun m => (b! "\"" ++ (f m).1 ++ b! "\"", (f m).2.1)), ms', rfl, ⟨h4.trans (hmap ▸ (hperm.map _).symm), h5⟩, ?_⟩
  have := Writes.struct (W := W) (M := M) (o := o) (ca := false) (q' := fun _ => false) (x := fun m => (f m).2.2) (b := fun m => (f m).2.1) (key := fun m => (f m).1)
    (c := []) hL.2.1 hL.1 b1 hsub
    (fun m hm => by rw [hin, b3]; exact ⟨fun h => h.2, fun h => ⟨hm, h⟩⟩) (fun m hm => (hf m ((hin m).mp hm)).1)
    (fun m hm => by simp [(hE m ((hin m).mp hm)).plain]) (fun m hm => (hf m ((hin m).mp hm)).2.2.1) (List.Sublist.refl _)
    (fun m hm => by simp only [hm, true_iff]; exact fun h => (hE m ((hin m).mp hm)).kept ⟨h.1, h.2.1⟩) (fun m hm => (hf m ((hin m).mp hm)).2.1) (.none (.inr rfl))
  simpa [objectOf, Function.comp_def] using this

theorem inOrder_exists {sort : SortAlg} (hs : SortOk sort) {ms : List (Bytes × Bytes)} (h : ∀ m ∈ ms, 2 ≤ m.1.length) : ∃ ms', InOrder o ms ms' := by
  have hp := hs.perm (fun a b : Bytes × Bytes => bytesLess (keyBody a.1) (keyBody b.1)) ms
  refine ⟨_, hp, fun _ => ⟨(hs.sorted (fun a b : Bytes × Bytes => bytesLess (keyBody a.1) (keyBody b.1)) ms ?_).imp fun h => bytesLess_byteLe _ _ h,
    fun m hm => h m (hp.mem_iff.mp hm)⟩⟩
  exact strictWeak_of_key (fun m => keyBody m.1) _ (fun a => bytesLess_irrefl _) (fun a b c => bytesLess_trans _ _ _) (fun a b => bytesLess_total _ _)
    (fun a b h => by rw [show keyBody a.1 = keyBody b.1 from h, bytesLess_irrefl])

/-- C82: a call for a struct and a call for the map with its members both succeed or both fail, and the texts have the same members. -/
theorem C82_calls {H : Heap} (D : FaultReady W H M) (DW : WriteReady W H M) (hP : PathFree M) (hL : LikeMap W t) {t' : TId} (hA : AnyMap W t')
    {opts : List (Option Opt)} (ho : prepare opts = .ok o) {kvs : List (Val × Val)} (hm : MemberMap W o t v kvs)
    (hs : bmHas o.flags .noStringEscaping = true → bmHas o.flags .noHTMLEscaping = true) {w w' : Addr}
    (hx : ReprE W.E H.mem (some (t, w)) (.iface t v)) (hx' : ReprE W.E H.mem (some (t', w')) (.iface t' (.map kvs)))
    (hf : TimesFine W t v) (hf' : TimesFine W t' (.map kvs)) {n n' : Nat} (hn : marshalOpts W H n (some (t, w)) opts ≠ .nofuel)
    (hn' : marshalOpts W H n' (some (t', w')) opts ≠ .nofuel) :
    ((∃ b, marshalOpts W H n (some (t, w)) opts = .ret (some b) none) ↔ ∃ b, marshalOpts W H n' (some (t', w')) opts = .ret (some b) none) ∧
    (bmHas o.flags .unsortedMap = false → KeysTold W M o t v → ∀ b c, marshalOpts W H n (some (t, w)) opts = .ret (some b) none →
      marshalOpts W H n' (some (t', w')) opts = .ret (some c) none → ∃ ms ms', b = objectOf ms ∧ InOrder o ms ms' ∧ c = objectOf ms') := by
  have hp : isPtrK (W.E t).kind = false := by obtain ⟨⟨fs, hk⟩, -⟩ := hL; rw [show (W.E t).kind = _ from hk]; rfl
  have hp' : isPtrK (W.E t').kind = false := by obtain ⟨-, k, e, hk, -⟩ := hA; rw [hk]; rfl
  refine ⟨⟨fun ⟨b, h⟩ => ?_, fun ⟨c, h⟩ => ?_⟩, fun hu hd b c h h' => ?_⟩
  · have hw := (C56_bytes DW hx hf ho).1 b h
    rw [hp] at hw
    obtain ⟨ms, -, h1, h2⟩ := C82_map hL hA hm hs hw
    obtain ⟨ms', h3⟩ := inOrder_exists (o := o) DW.ready.sort h1
    obtain ⟨c, hc, -⟩ := (C56_complete D DW hP hx' hf' ho (by rw [hp']; exact h2 ms' h3) n' [] hn').1
    exact ⟨c, hc⟩
  · have hw := (C56_bytes DW hx' hf' ho).1 c h
    rw [hp'] at hw
    obtain ⟨ms, ms', -, -, h1⟩ := C82_struct hL hA hm hs hw
    obtain ⟨b, hb, -⟩ := (C56_complete D DW hP hx hf ho (by rw [hp]; exact h1) n [] hn).1
    exact ⟨b, hb⟩
  · have hw := (C56_bytes DW hx' hf' ho).1 c h'
    rw [hp'] at hw
    obtain ⟨ms, ms', h1, h2, h3⟩ := C82_struct hL hA hm hs hw
    have := ((C56_complete D DW hP hx hf ho (by rw [hp]; exact h3) n [] hn).2 hu hd).1
    rw [h] at this
    cases this
    exact ⟨ms, ms', rfl, h2, h1⟩

end Jettison.Props
