import Verif.Props.Document
import Verif.Props.MapsEx

/-!
# The document: an example

A value with a struct, a tag option, maps, a `sync.Map`, methods, a time and a raw message,
under the default options, meets the hypotheses of `C30_document_partial`.
-/

namespace Jettison.Props
open Jettison Jettison.Spec Jettison.Model Jettison.Proofs

/-- A sufficient test for `KeyFine` with the default options. -/
def keyB (kt : TId) : Bool :=
  isStringK (shopW.E kt).kind ||
    (!(shopW.E kt).meths.text && (shopW.E kt).special.isNone && !anyMeth (shopW.E kt).meths) ||
    ((shopW.E kt).meths.text && (shopW.E kt).special == some .time)

/-- A sufficient test for `Fine` with the default options. -/
def fineB (t : TId) (v : Val) : Bool :=
  (match v with
    | .time x => decide ((-9223372036854775808 ≤ x.unix ∧ x.unix < 9223372036854775808) ∧ x.nsec < 1000000000 ∧
        (dayNumber 0 12 31 * 86400 : Nat) ≤ x.unix + x.offset + epochSeconds)
    | _ => true) &&
  (match v with | .slice vs => (match bytesOf vs with | some b => (shopW.E t).special != some .rawMessage || shopW.jsonValid b | none => true) | _ => true) &&
  (match (shopW.E t).kind, v with | .map k _, .map _ => keyB k | _, _ => true) &&
  (match v with | .smap kvs => kvs.all fun kv => (match kv.1 with | .iface d _ => keyB d && !isPtrK (shopW.E d).kind | _ => true) | _ => true) &&
  (match (shopW.E t).kind with
    | .struct fs => (List.range fs.length).all fun i =>
        match fs[i]? with
        | some sf => !sf.anonymous && (!tagContains (parseTag sf.tag).2 (b! "omitnil") || (!(shopW.E sf.typ).meths.json && !(shopW.E sf.typ).pmeths.json)) &&
            (!tagContains (parseTag sf.tag).2 (b! "string") || ((shopW.E sf.typ).special.isNone && !isPtrK (shopW.E sf.typ).kind &&
              match v with | .struct vs => (match vs[i]? with | some (.int _) => true | _ => false) | _ => false))
        | none => true
    | _ => true) &&
  ((shopW.E t).special.isSome ||
    (!(shopW.E t).meths.append && !(shopW.E t).meths.appendCtx && !(shopW.E t).pmeths.append && !(shopW.E t).pmeths.appendCtx &&
      ((!(shopW.E t).meths.text && !(shopW.E t).pmeths.text) || ((shopW.E t).meths.text && (ifaceK (shopW.E t).kind).isNone &&
        decide (unescape ((strOf v).getD (b! "t")) = some ((strOf v).getD (b! "t")))))))

theorem keyB_fine {kt : TId} {x : Val} (h : keyB kt = true) : KeyFine shopW defaultEncOpts kt x := by
  simp only [keyB, Bool.or_eq_true, Bool.and_eq_true, Bool.not_eq_true', Option.isNone_iff_eq_none, beq_iff_eq] at h
  constructor
  · intro h1 h2
    rcases h with (h | ⟨⟨h3, h4⟩, h5⟩) | ⟨h3, h4⟩
    · exact absurd (by cases hk : (shopW.E kt).kind <;> simp_all [isStringK]) h1
    · exact .inl ⟨h4, fun h => by (rw [(anyMeth_iff _).mpr h] at h5; cases h5), fun h => nomatch h⟩
    · rw [h2] at h3; cases h3
  · intro h1 h2
    rcases h with (h | ⟨⟨h3, h4⟩, h5⟩) | ⟨h3, h4⟩
    · exact absurd (by cases hk : (shopW.E kt).kind <;> simp_all [isStringK]) h1
    · rw [h2] at h3; cases h3
    · exact .inr ⟨h4, by decide +kernel⟩

/-- The members of a struct embedding nothing are its own fields. -/
theorem chosen_flat {letter digit : Nat → Bool} {E : Env} {t : TId} {fs : List FieldDef} (hk : HasFields E t fs) (hf : ∀ sf ∈ fs, sf.anonymous = false)
    {m : MField} (h : ChosenField letter digit E t m) : ∃ i, m.path = [i] ∧ fs[i]? = some m.decl := by
  obtain ⟨p, u, i, r, tg, hpath, hp, -⟩ := h
  obtain ⟨⟨p', q, hr, hp', -⟩, ⟨fs', hf', hi⟩, -⟩ := hp
  have key : ∀ {p u q}, Reaches letter digit E t p u q → u = t ∧ p = [] := by
    intro p u q h
    induction h with
    | here => exact ⟨rfl, rfl⟩
    | step h h1 h2 h3 ih =>
      obtain ⟨rfl, rfl⟩ := ih
      unfold HasFields at hk h1
      rw [hk] at h1
      cases h1
      have := hf _ (List.mem_of_getElem? h2)
      rw [h3.2.1] at this
      cases this
  obtain ⟨rfl, rfl⟩ := key hr
  unfold HasFields at hk hf'
  rw [hk] at hf'
  cases hf'
  exact ⟨i, by simpa using hp', hi⟩

theorem fineB_fine {t : TId} {v : Val} (h : fineB t v = true) : Fine shopW (univM shopMeth) defaultEncOpts t v := by
  simp only [fineB, Bool.and_eq_true] at h
  obtain ⟨⟨⟨⟨⟨h1, h2⟩, h3⟩, h4⟩, h5⟩, h6⟩ := h
  have hl : defaultEncOpts.layout = .rfc3339Nano := by decide +kernel
  have hu : ∀ f, bmHas defaultEncOpts.flags f = false := by intro f; cases f <;> decide +kernel
  have hst : ∀ m, IsStruct shopW.E t → ChosenField shopW.U.isLetter shopW.U.isDigit shopW.E t m →
      ∃ i, m.path = [i] ∧
        (tagContains (parseTag m.decl.tag).2 (b! "omitnil") = true → (shopW.E m.decl.typ).meths.json = false ∧ (shopW.E m.decl.typ).pmeths.json = false) ∧
        (tagContains (parseTag m.decl.tag).2 (b! "string") = true → (shopW.E m.decl.typ).special = none ∧ isPtrK (shopW.E m.decl.typ).kind = false ∧
          ∃ vs x, v = .struct vs ∧ vs[i]? = some (.int x)) := by
    rintro m ⟨fs, hfs⟩ hc
    have hk : (shopW.E t).kind = .struct fs := hfs
    rw [hk] at h5
    simp only [List.all_eq_true, List.mem_range] at h5
    have hflat : ∀ sf ∈ fs, sf.anonymous = false := by
      intro sf hsf
      obtain ⟨i, hi⟩ := List.mem_iff_getElem?.mp hsf
      have := h5 i (List.getElem?_eq_some_iff.mp hi).1
      rw [hi] at this
      simp only [Bool.and_eq_true, Bool.not_eq_true'] at this
      exact this.1.1
    obtain ⟨i, p1, p2⟩ := chosen_flat hfs hflat hc
    have := h5 i (List.getElem?_eq_some_iff.mp p2).1
    rw [p2] at this
    simp only [Bool.and_eq_true, Bool.not_eq_true', Bool.or_eq_true, Option.isNone_iff_eq_none] at this
    refine ⟨i, p1, fun ho => ?_, fun ho => ?_⟩
    · rcases this.1.2 with h | h
      · rw [ho] at h; cases h
      · exact h
    · rcases this.2 with h | ⟨⟨h, h'⟩, h''⟩
      · rw [ho] at h; cases h
      · refine ⟨h, h', ?_⟩
        split at h''
        · split at h''
          · next x hx => exact ⟨_, x, rfl, hx⟩
          · cases h''
        · cases h''
  constructor
  · intro hs ca m rt x u path c b hp hr hm
    rw [hs] at h6
    simp only [Option.isSome_none, Bool.false_eq_true, Bool.or_eq_true, false_or, Bool.and_eq_true, Bool.not_eq_true', decide_eq_true_eq, Option.isNone_iff_eq_none] at h6
    obtain ⟨⟨⟨⟨a1, a2⟩, a3⟩, a4⟩, h6⟩ := h6
    have av := hp.1
    cases m with
    | appendCtx => rcases av with h | ⟨-, -, h⟩ <;> simp [MethSet.Has, a2, a4] at h
    | append => rcases av with h | ⟨-, -, h⟩ <;> simp [MethSet.Has, a1, a3] at h
    | json => intro h; rw [hu] at h; cases h
    | text =>
      rcases h6 with ⟨b1, b2⟩ | ⟨⟨b1, b2⟩, b3⟩
      · rcases av with h | ⟨-, -, h⟩ <;> simp [MethSet.Has, b1, b2] at h
      · cases hr with
        | own => simp only [univM, shopMeth, MethRes.ok.injEq] at hm; subst hm; exact b3
        | dyn _ hi => obtain ⟨n, hn⟩ := ifaceK_some hi; rw [hn] at b2; cases b2
        | addr hn => simp [MethSet.Has, b1] at hn
  · rintro x rfl
    simp only [decide_eq_true_eq] at h1
    exact ⟨h1.1, h1.2.1, fun _ _ => h1.2.2, fun _ l h => by rw [hl] at h; cases h⟩
  · intro s _ _ h; rw [hu] at h; cases h
  · rintro vs b hs rfl ha
    have hb : bytesOf vs = some b := by rw [ha]; exact bytesOf_asBytes b
    simp only [hb, hs, bne_self_eq_false, Bool.false_or] at h2
    obtain ⟨j, hj⟩ := (shop_valid b).mp h2
    exact ⟨j, hj, fun h => by rw [hu] at h; cases h⟩
  · intro e _ _ _ _; exact hu _
  · rintro k e kvs kv hk rfl -
    rw [hk] at h3
    exact keyB_fine h3
  · rintro kvs kv d x rfl hkv he
    simp only [List.all_eq_true] at h4
    have := h4 kv hkv
    rw [he] at this
    simp only [Bool.and_eq_true, Bool.not_eq_true'] at this
    refine ⟨keyB_fine this.1, fun hp => ?_⟩
    rw [(isPtr_iff _ _).mp hp] at this
    cases this.2
  · intro m x hc hf ho hbp
    have hs : IsStruct shopW.E t := by
      obtain ⟨p, u, i, r, tg, -, ⟨⟨p', q, hr, -⟩, ⟨fs, hfs, -⟩, -⟩, -⟩ := hc
      have : ∀ {p u q}, Reaches shopW.U.isLetter shopW.U.isDigit shopW.E t p u q → IsStruct shopW.E u → IsStruct shopW.E t := by
        intro p u q h
        induction h with
        | here => exact id
        | step _ h1 _ _ ih => exact fun _ => ih ⟨_, h1⟩
      exact this hr ⟨fs, hfs⟩
    obtain ⟨i, p1, -, p3⟩ := hst m hs hc
    obtain ⟨q1, q2, vs, y, rfl, q3⟩ := p3 ((hasOpt_iff _ _).mp ho)
    rw [p1] at hf
    cases hf with
    | last hx =>
      rw [q3] at hx; cases hx
      refine ⟨⟨q1, fun e he => ?_⟩, fun s c h => ?_⟩
      · rw [he] at q2; cases q2
      · rcases h with h | h <;> cases h
  · intro m hs hc ho hj
    obtain ⟨i, -, p3, -⟩ := hst m hs hc
    have := p3 ((hasOpt_iff _ _).mp ho)
    rcases hj with h | h
    · rw [this.1] at h; cases h
    · rw [this.2] at h; cases h

/-- At 100 a `map[int]interface{}`: under 1 an `Item` whose price is tagged `string`, under 2 a
`[]Loud`, under 3 a `map[Soft]int`, under 4 a time, under 5 a `RawMessage`, under 6 a `sync.Map`. -/
def bigCells : List (Addr × Cell) :=
  [(100, .hmap [(110, 120), (140, 150), (160, 170), (180, 190), (200, 210), (220, 230)]),
   (110, .int (.int 1)), (140, .int (.int 2)), (160, .int (.int 3)), (180, .int (.int 4)), (200, .int (.int 5)), (220, .int (.int 6)),
   (120, .eface (some (4, 400))), (150, .eface (some (46, 500))), (170, .eface (some (48, 600))), (190, .eface (some (26, 700))),
   (210, .eface (some (52, 800))), (230, .eface (some (30, 900))),
   (400, .str (b! "t\"é")), (416, .int (.int 0)), (424, .word 0), (432, .str (b! "x")), (448, .int (.int 12)),
   (500, .slice 520 1), (520, .str (b! "loud")),
   (600, .hmap [(620, 640)]), (620, .str (b! "<k>")), (640, .int (.int 4)),
   (700, .time { unix := 951782400, nsec := 500, offset := 3600 }),
   (800, .slice 820 4), (820, .int (.uint8 91)), (821, .int (.uint8 32)), (822, .int (.uint8 49)), (823, .int (.uint8 93)),
   (900, .smap [(some (2, 620), some (0, 640))])]

def bigV : Val :=
  .map [(.int (.int 1), .iface 4 (.struct [.str (b! "t\"é"), .int (.int 0), .nil, .str (b! "x"), .int (.int 12)])),
    (.int (.int 2), .iface 46 (.slice [.str (b! "loud")])),
    (.int (.int 3), .iface 48 (.map [(.str (b! "<k>"), .int (.int 4))])),
    (.int (.int 4), .iface 26 (.time { unix := 951782400, nsec := 500, offset := 3600 })),
    (.int (.int 5), .iface 52 (.slice [.int (.uint8 91), .int (.uint8 32), .int (.uint8 49), .int (.uint8 93)])),
    (.int (.int 6), .iface 30 (.smap [(.iface 2 (.str (b! "<k>")), .iface 0 (.int (.int 4)))]))]

theorem big_holds : ReprE shopW.E (shopH bigCells).mem (some (32, 100)) (.iface 32 bigV) := shop_holds 8 (by decide +kernel)

theorem big_ready : DocReady shopW (shopH bigCells) (univM shopMeth) defaultEncOpts :=
  ⟨shop_ready _, toyFmt_contract, shop_honest _, shop_honestM, shop_names, shop_order, shop_valid, by decide +kernel⟩

theorem big_fine : AllFine shopW (univM shopMeth) defaultEncOpts 32 bigV :=
  fun _ _ h => fineB_fine (allParts_within (n := 6) (P := fineB) (by decide +kernel) h)

theorem big_text : marshal shopW (shopH bigCells) 9 (some (32, 100)) = .ret (some (b!
    "{\"1\":{\"name\":\"t\\\"é\",\"p\":\"12\"},\"2\":[[1,2]],\"3\":{\"\\u003ck\\u003e\":4},\"4\":\"2000-02-29T01:00:00.0000005+01:00\",\"5\":[1],\"6\":{\"\\u003ck\\u003e\":4}}")) none := by
  decide +kernel

/-- The hypotheses of `C30_document_partial` and so of `C30_value_partial`. -/
example : ∃ j, CompactText j (b!
    "{\"1\":{\"name\":\"t\\\"é\",\"p\":\"12\"},\"2\":[[1,2]],\"3\":{\"\\u003ck\\u003e\":4},\"4\":\"2000-02-29T01:00:00.0000005+01:00\",\"5\":[1],\"6\":{\"\\u003ck\\u003e\":4}}") ∧
    Denotes shopW (univM shopMeth) defaultEncOpts 32 false false bigV j :=
  (C30_document_partial (opts := []) big_ready big_holds big_fine rfl (n := 9)).1 _ big_text

end Jettison.Props
