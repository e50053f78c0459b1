import Verif.Proofs.Spoils
import Verif.Props.WritesUnique
import Verif.Props.Faults
import Verif.Props.Size

/-!
# C73: a text that is not JSON has a cause

If what a call writes is not a JSON text then encoding the value has encoded a part that spoils it
(Spec/Spoils): a method that appends or returns something else, or one of the options and findings
listed there. All the rest (names of members, strings, numbers, times, durations, base64, commas,
brackets) is always well-formed, for every type, value and combination of options.
-/

namespace Jettison.Props
open Jettison Jettison.Model Jettison.Spec Jettison.Proofs

variable {ws : Bytes → Prop} {W : World} {M : MethV} {o : EncOpts} {t : TId} {ca q : Bool} {v : Val} {b : Bytes}

theorem ws_nil : Ws [] := by intro c hc; cases hc

/-- Nothing encoded with the value spoils the text. -/
def Unspoilt (ws : Bytes → Prop) (W : World) (M : MethV) (o : EncOpts) (t : TId) (ca : Bool) (v : Val) : Prop :=
  ∀ t' ca' v', Encodes W o t ca v t' ca' v' → ¬ (Spoils ws W M o t' ca' v' ∨ SpoilsMember ws W M o t' ca' v')

theorem Unspoilt.part {t' : TId} {ca' : Bool} {v' : Val} (h : Unspoilt ws W M o t ca v) (h1 : Encodes1 W o t ca v t' ca' v') : Unspoilt ws W M o t' ca' v' :=
  fun _ _ _ h2 => h _ _ _ (.step h1 h2)

theorem w_intKind {k : IntK} (hb : ByKind W.E t ca) (hk : (W.E t).kind = .int k) (h : Writes W M o t ca false v b) :
    ∃ x, v = .int x ∧ IntLiteral b (intOf x) := by
  cases h with
  | int _ _ h => exact ⟨_, rfl, h⟩
  | struct _ hst => exact absurd hst (not_struct hk (by simp))
  | _ => byKindRest hb

theorem time_formed {x : GoTime} (hs : (W.E t).special = some .time) (hn : ¬ Spoils ws W M o t ca (.time x)) (h : TimeText W o x b) :
    (bmHas o.flags .unixTime = true ∧ IsNumber b) ∨ (bmHas o.flags .unixTime = false ∧ ∃ t c, unescape t = some c ∧ b = b! "\"" ++ t ++ b! "\"") :=
  timeText_formed h fun _ h1 h2 h3 => hn (.layout hs h1 h2 h3)

theorem text_formed {rt : TId} {x : Val} {u : TId} (hs : (W.E t).special = none) (hp : Picks W.E t ca .text) (hr : Receives W.E W.ptrTo t .text v rt x u)
    (hn : ¬ Spoils ws W M o t ca v) (h : MethText M o rt x .text b) : ∃ t c, unescape t = some c ∧ b = b! "\"" ++ t ++ b! "\"" := by
  cases h with
  | @text path d h =>
    cases hu : unescape d with
    | none => exact absurd (Spoils.text hs hp hr h hu) hn
    | some c => exact ⟨d, c, hu, rfl⟩

theorem meth_formed (hw : ws []) {m : MethKind} {rt : TId} {x : Val} {u : TId} (hs : (W.E t).special = none) (hp : Picks W.E t ca m)
    (hr : Receives W.E W.ptrTo t m v rt x u) (hn : ¬ Spoils ws W M o t ca v) (h : MethText M o rt x m b) : Formed ws b := by
  cases m with
  | appendCtx =>
    cases h with
    | ctx h => exact Classical.byContradiction fun hb => hn (.append hs hp (.inl rfl) hr h hb)
  | append =>
    cases h with
    | app h => exact Classical.byContradiction fun hb => hn (.append hs hp (.inr rfl) hr h hb)
  | json =>
    cases h with
    | json h1 h2 h3 =>
      cases hc : bmHas o.flags .noCompact with
      | true =>
        cases h3 with
        | verbatim => exact Classical.byContradiction fun hb => hn (.verbatim hs hp hr h1 hc hb)
        | compact h => rw [h] at hc; cases hc
      | false =>
        obtain ⟨j, hj⟩ := h2 hc
        exact copiedAs_formed hw h3 hc hj
  | text =>
    obtain ⟨t, c, h1, rfl⟩ := text_formed hs hp hr hn h
    exact formed_str hw h1

/-- The text of a key with a `MarshalText` method is a string, unless the key is odd. -/
theorem textKey_formed (hw : ws []) {k : TId} {x : Val} (ht : (W.E k).meths.text = true) (hn : ¬ Spoils ws W M o k ca x) (ho : ¬ OddKey W o k ca x)
    (h : Writes W M o k ca false x b) : StrFormed ws b := by
  cases hs : (W.E k).special with
  | some s =>
    by_cases hc : s = .time ∧ bmHas o.flags .unixTime = false
    · obtain ⟨rfl, hc⟩ := hc
      obtain ⟨x, rfl, -, h1⟩ := w_time hs h
      rcases time_formed hs hn h1 with ⟨h2, -⟩ | ⟨-, t, c, h2, rfl⟩
      · rw [h2] at hc; cases hc
      · exact strFormed_str hw h2
    · exact absurd (.native hs (fun h => hc ⟨h.1, h.2.1⟩) (fun h => by rw [ht] at h; cases h.2.2)) ho
  | none =>
    rcases picks_or_byKind (ca := ca) hs with hb | ⟨m, hm⟩
    · exact absurd (by simp [MethSet.any, ht]) hb.meths
    · by_cases hmt : m = .text
      · subst hmt
        rcases w_meth hs hm h with ⟨rfl, -, -, g⟩ | ⟨rt, y, u, g1, g2⟩
        · exact absurd (.nilText hs hm g.symm) ho
        · obtain ⟨t, c, h1, rfl⟩ := text_formed hs hm g1 hn g2
          exact strFormed_str hw h1
      · exact absurd (.method hs hm hmt) ho

/-- The text of an integer key without a `MarshalText` method is a number, unless the key is odd. -/
theorem intKey_number (hl : FormatContract W.fmt) {k : TId} {x : Val} {ik : IntK} (hk : (W.E k).kind = .int ik) (ht : (W.E k).meths.text = false)
    (ho : ¬ OddKey W o k false x) (h : Writes W M o k false false x b) : IsNumber b := by
  cases hs : (W.E k).special with
  | some s =>
    by_cases hc : s = .duration ∧ o.durFmt ≠ .str
    · obtain ⟨rfl, hc⟩ := hc
      obtain ⟨x, rfl, h1⟩ := w_duration hs h
      rcases durationText_formed hl h1 with ⟨h2, -⟩ | ⟨-, h2⟩
      · exact absurd h2 hc
      · exact h2
    · exact absurd (.native hs (fun h => by rw [ht] at h; cases h.2.2) (fun h => hc ⟨h.1, h.2.1⟩)) ho
  | none =>
    rcases picks_or_byKind (ca := false) hs with hb | ⟨m, hm⟩
    · obtain ⟨y, rfl, h1⟩ := w_intKind hb hk h
      exact intLiteral_isNumber h1
    · refine absurd (.method hs hm ?_) ho
      rintro rfl
      rcases hm.1 with h1 | ⟨h1, -⟩
      · simp [MethSet.Has, ht] at h1
      · cases h1

theorem quoted_plain (hw : ws []) (h : ∀ c ∈ b, PlainByte c) : StrFormed ws (b! "\"" ++ b ++ b! "\"") := strFormed_str hw (unescape_plain _ h)

/-- Scalars are well-formed, and plain unless they are strings. -/
theorem scalar_formed (hw : ws []) (hl : FormatContract W.fmt) (hb : ByKind W.E t ca) (hk : isBasicK (W.E t).kind = true) (self : ¬ Spoils ws W M o t ca v)
    {c : Bytes} (hc : Writes W M o t ca false v c) : Formed ws c ∧ ((W.E t).kind ≠ .string → ∀ y ∈ c, PlainByte y) := by
  have number : ∀ {b}, IsNumber b → Formed ws b := fun h => formed_val hw (Gr.num _ h)
  cases hc with
  | yes => exact ⟨formed_val hw Gr.true, fun _ => by decide⟩
  | no => exact ⟨formed_val hw Gr.false, fun _ => by decide⟩
  | int _ _ h0 => exact ⟨number (intLiteral_isNumber h0), fun _ => number_plain (intLiteral_isNumber h0)⟩
  | float _ _ h0 => exact ⟨number (floatText_number hl h0), fun _ => number_plain (floatText_number hl h0)⟩
  | str _ hks h0 =>
    obtain ⟨c, hc⟩ := spelledAs_body h0 fun he hu => self (.str hb hks he hu)
    exact ⟨formed_str hw hc, fun h => absurd hks h⟩
  | struct _ hst => obtain ⟨fs, hf⟩ := hst; rw [HasFields] at hf; rw [hf] at hk; cases hk
  | _ => first | exact (picks_byKind ‹_› hb).elim | (have hsp := ByKind.special hb; simp_all; done) | (rw [‹(W.E t).kind = _›] at hk; cases hk)

/-- The claim for smaller values. -/
def FormedBelow (ws : Bytes → Prop) (W : World) (M : MethV) (o : EncOpts) (n : Nat) : Prop :=
  ∀ t ca q v b, sizeOf v < n → HasType W.E t v → Unspoilt ws W M o t ca v → Writes W M o t ca q v b → Formed ws b

set_option maxHeartbeats 1000000 in
theorem formed_step (hw : ws []) (hl : FormatContract W.fmt) (hU : TablesOk W.U.isLetter W.U.isDigit) (hN : GoNames W.U.isLetter W.U.isDigit W.E)
    (G : GoTypes W.E W.ptrTo) {n : Nat} (ih : FormedBelow ws W M o n) (hn : sizeOf v = n)
    (ht : HasType W.E t v) (hu : Unspoilt ws W M o t ca v) (h : Writes W M o t ca q v b) : Formed ws b := by
  have self : ¬ Spoils ws W M o t ca v := fun h => hu _ _ _ .refl (.inl h)
  have selfM : ¬ SpoilsMember ws W M o t ca v := fun h => hu _ _ _ .refl (.inr h)
  have part : ∀ {t' : TId} {v' : Val} {ca' q : Bool} {b : Bytes}, Encodes1 W o t ca v t' ca' v' → sizeOf v' < sizeOf v →
      Writes W M o t' ca' q v' b → Formed ws b := fun hp hs h =>
    ih _ _ _ _ _ (hn ▸ hs) (encodes1_within G ht hp).1 (hu.part hp) h
  have number : ∀ {b}, IsNumber b → Formed ws b := fun h => formed_val hw (Gr.num _ h)
  have null : Formed ws (b! "null") := formed_val hw Gr.null
  have object : ∀ {ms ms' : List (Bytes × Bytes)} {kvs : List (Val × Val)}, ms.length = kvs.length → ms'.Perm ms →
      (∀ (i : Nat) kv m, kvs[i]? = some kv → ms[i]? = some m → StrFormed ws m.1 ∧ Formed ws m.2) → Formed ws (objectOf ms') := by
    intro ms ms' kvs h1 h2 h3
    refine formed_obj hw fun x hx => ?_
    obtain ⟨m, hm, rfl⟩ := List.mem_map.mp hx
    obtain ⟨i, hi, rfl⟩ := List.getElem_of_mem (h2.mem_iff.mp hm)
    obtain ⟨g1, g2⟩ := h3 i _ _ (List.getElem?_eq_getElem (h1 ▸ hi)) (List.getElem?_eq_getElem hi)
    exact ⟨_, _, g1, g2, rfl⟩
  have array : ∀ {vs : List Val} {bs : List Bytes}, bs.length = vs.length → (∀ (i : Nat) x y, vs[i]? = some x → bs[i]? = some y → Formed ws y) →
      Formed ws (b! "[" ++ commas bs ++ b! "]") := by
    intro vs bs h1 h2
    refine formed_arr hw fun x hx => ?_
    obtain ⟨i, hi, rfl⟩ := List.getElem_of_mem hx
    exact h2 i _ _ (List.getElem?_eq_getElem (h1 ▸ hi)) (List.getElem?_eq_getElem hi)
  cases hs : (W.E t).special with
  | some s =>
    cases s with
    | time =>
      obtain ⟨x, rfl, -, h1⟩ := w_time hs h
      rcases time_formed hs self h1 with ⟨-, h2⟩ | ⟨-, t, c, h2, rfl⟩
      · exact number h2
      · exact formed_str hw h2
    | duration =>
      obtain ⟨x, rfl, h1⟩ := w_duration hs h
      rcases durationText_formed hl h1 with ⟨-, t, h2, rfl⟩ | ⟨-, h2⟩
      · exact formed_str hw h2
      · exact number h2
    | number =>
      have hnum : ∀ s, v = .str s → s ≠ [] → (bmHas o.flags .noNumberValidation = false → IsNumber s) → Formed ws s := by
        rintro s rfl h0 h1
        cases hv : bmHas o.flags .noNumberValidation with
        | true => exact Classical.byContradiction fun h2 => self (.number hs hv h0 h2)
        | false => exact number (h1 hv)
      cases h with
      | number0 => exact number ⟨[], b! "0", [], [], rfl, .inl rfl, .inl rfl, .inl rfl, .inl rfl⟩
      | number _ h0 h1 => exact hnum _ rfl h0 h1
      | _ => specialRest
    | rawMessage =>
      rcases w_raw hs h with ⟨rfl, rfl⟩ | ⟨vs, x, rfl, h1, h2⟩
      · exact null
      · apply Classical.byContradiction
        intro hb
        exact self (.raw hs h1 h2 (fun hc j hj => hb (copiedAs_formed hw h2 hc hj)) hb)
    | syncMap =>
      obtain ⟨kvs, ms, ms', rfl, rfl, h1, h2, h3, h4, h5⟩ := w_smap hs h
      have small : ∀ {kv : Val × Val}, kv ∈ kvs → sizeOf kv.1 < sizeOf (Val.smap kvs) ∧ sizeOf kv.2 < sizeOf (Val.smap kvs) := by
        intro kv hkv
        have := List.sizeOf_lt_of_mem hkv
        have e : sizeOf kv = 1 + sizeOf kv.1 + sizeOf kv.2 := by cases kv; simp
        simp only [Val.smap.sizeOf_spec]
        omega
      refine object h1 h5.1 fun i kv m ha hb => ?_
      have hkv := List.mem_of_getElem? ha
      constructor
      · have hk := h2 i kv m ha hb
        generalize hkk : kv.1 = key at hk
        generalize m.1 = text at hk
        have odd : ∀ {kt x}, (W.E kt).kind ≠ .string → key = .iface kt x → (OddKey W o kt (isPtrK (W.E kt).kind) x → StrFormed ws text) := by
          intro kt x hks e ho
          exact Classical.byContradiction fun hb => selfM (.skey hs hks hkv (hkk.trans e) ho (e ▸ hk) hb)
        cases hk with
        | str hks hsp =>
          obtain ⟨c, hc⟩ := spelledAs_body hsp fun he hu => selfM (.skeyStr hs hks he hkv hkk hu)
          exact strFormed_str hw hc
        | @text kt x _ hks htx hwr =>
          by_cases ho : OddKey W o kt (isPtrK (W.E kt).kind) x
          · exact odd hks rfl ho
          · exact textKey_formed hw htx (fun h => hu.part (.skey hs hkv hkk (.inr (.inr htx)) hks) _ _ _ .refl (.inl h)) ho hwr
        | @quoted kt ik x c hki htx hwr =>
          have hks : (W.E kt).kind ≠ .string := by simp [hki]
          by_cases ho : OddKey W o kt (isPtrK (W.E kt).kind) x
          · exact odd hks rfl ho
          · have hca : isPtrK (W.E kt).kind = false := by rw [hki]; rfl
            rw [hca] at ho hwr
            exact quoted_plain hw (number_plain (intKey_number hl hki htx ho hwr))
      · have hx : InIface W.E kv.2 := by
          cases ht with
          | smap _ _ hx => exact hx kv hkv
          | iface _ hx => cases hx
        rcases inIface_cases hx with e | ⟨d, x, e, -⟩
        · exact absurd e (h4 kv hkv)
        · exact part (.selem hs hkv e) (by have := (small hkv).2; rw [e] at this; simp only [Val.iface.sizeOf_spec] at this; omega) (h3 i kv m d x ha hb e)
  | none =>
    rcases picks_or_byKind (ca := ca) hs with hb | ⟨m, hm⟩
    · by_cases hk : isBasicK (W.E t).kind = true
      · have scalar : ∀ {c}, _ := fun {c} => scalar_formed (c := c) hw hl hb hk self
        cases q with
        | false => exact (scalar h).1
        | true =>
          rcases w_quoted hb hk h with ⟨h1, c, h2, rfl⟩ | ⟨h1, s, c, rfl, h2, rfl⟩
          · exact formed_str hw (unescape_plain _ ((scalar h2).2 h1))
          · obtain ⟨c, hc⟩ := spelledAs_body h2 fun he hu => self (.str hb h1 he hu)
            have := formed_str hw (unescape_quoted hc)
            simpa using this
      · cases hkk : (W.E t).kind with
        | bool | int | float | string => rw [hkk] at hk; exact absurd rfl hk
        | other => exact absurd hkk (w_kind hb h)
        | ptr e =>
          rcases w_ptr hb hkk h with ⟨rfl, rfl⟩ | ⟨x, rfl, h1⟩
          · exact null
          · exact part (.ptr hb hkk) (by simp) h1
        | iface k =>
          have := w_tag hb hk (by simp [hkk]) h
          subst this
          rcases w_iface hb hkk h with ⟨rfl, rfl⟩ | ⟨d, x, rfl, h1⟩
          · exact null
          · exact part (.iface hb hkk) (by simp only [Val.iface.sizeOf_spec]; omega) h1
        | slice e =>
          have := w_tag hb hk (by simp [hkk]) h
          subst this
          by_cases he : ByteElem W.E e
          · rcases w_bytes hb hkk he h with ⟨rfl, rfl⟩ | ⟨vs, x, c, rfl, rfl, h1, h2⟩
            · exact null
            · rcases h2 with ⟨-, h2⟩ | ⟨hr, h2⟩
              · exact formed_str hw (unescape_plain _ (base64_plainBytes h2))
              · obtain ⟨c, hc⟩ := spelledAs_body h2 fun hes hu => self (.bytes hb hkk he hr hes h1 hu)
                exact formed_str hw hc
          · rcases w_slice hb hkk he h with ⟨rfl, rfl⟩ | ⟨vs, bs, rfl, rfl, h1, h2⟩
            · split
              · exact formed_arr (ts := []) hw (by simp)
              · exact null
            · refine array h1 fun i x y hx hy => part (.slice hb hkk he (List.mem_of_getElem? hx)) ?_ (h2 i x y hx hy)
              have := List.sizeOf_lt_of_mem (List.mem_of_getElem? hx)
              simp only [Val.slice.sizeOf_spec]
              omega
        | array k e =>
          have := w_tag hb hk (by simp [hkk]) h
          subst this
          rcases w_array hb hkk h with ⟨vs, x, c, rfl, rfl, g1, g2, g3, g4⟩ | ⟨vs, bs, rfl, rfl, g1, g2, g3⟩
          · obtain ⟨c, hc⟩ := spelledAs_body g4 fun hes hu => self (.byteArray hb hkk g1 g2 hes g3 hu)
            exact formed_str hw hc
          · refine array g2 fun i x y hx hy => part (.array hb hkk (fun h => by rw [g1 h.1] at h; cases h.2) (List.mem_of_getElem? hx)) ?_ (g3 i x y hx hy)
            have := List.sizeOf_lt_of_mem (List.mem_of_getElem? hx)
            simp only [Val.array.sizeOf_spec]
            omega
        | map k e =>
          have := w_tag hb hk (by simp [hkk]) h
          subst this
          obtain ⟨hkt, h⟩ := w_map hb hkk h
          rcases h with ⟨rfl, rfl⟩ | ⟨kvs, ms, ms', rfl, rfl, h1, h2, h3, h5⟩
          · split
            · exact formed_obj (ts := []) hw (by simp)
            · exact null
          · have small : ∀ {kv : Val × Val}, kv ∈ kvs → sizeOf kv.1 < sizeOf (Val.map kvs) ∧ sizeOf kv.2 < sizeOf (Val.map kvs) := by
              intro kv hkv
              have := List.sizeOf_lt_of_mem hkv
              have e : sizeOf kv = 1 + sizeOf kv.1 + sizeOf kv.2 := by cases kv; simp
              simp only [Val.map.sizeOf_spec]
              omega
            refine object h1 h5.1 fun i kv m ha hb' => ?_
            have hkv := List.mem_of_getElem? ha
            refine ⟨?_, part (.elem hb hkk hkt hkv) (small hkv).2 (h3 i kv m ha hb')⟩
            have hkw := h2 i kv m ha hb'
            generalize hkey : kv.1 = key at hkw
            generalize m.1 = text at hkw
            have odd : (W.E k).kind ≠ .string → (IsPtr W.E k → key ≠ .nil) → OddKey W o k false key → StrFormed ws text := by
              intro hks hp ho
              subst hkey
              exact Classical.byContradiction fun hb' => selfM (.key hb hkk hks hkv ho hp hkw hb')
            cases hkw with
            | str hks hsp =>
              obtain ⟨c, hc⟩ := spelledAs_body hsp fun he hu => selfM (.keyStr hb hkk hks he hkv hkey hu)
              exact strFormed_str hw hc
            | nilText => exact strFormed_str (kb := []) hw rfl
            | text hks htx hnil hwr =>
              by_cases ho : OddKey W o k false key
              · exact odd hks hnil ho
              · subst hkey
                exact textKey_formed hw htx (fun h => hu.part (.key hb hkk hkt hks (fun _ => hnil) hkv) _ _ _ .refl (.inl h)) ho hwr
            | quoted hks htx hwr =>
              obtain ⟨ik, hki⟩ : ∃ ik, (W.E k).kind = .int ik := by
                rcases hkt with h | h | h
                · exact absurd h hks
                · exact h
                · rw [htx] at h; cases h
              by_cases ho : OddKey W o k false key
              · exact odd hks (fun ⟨e', h'⟩ => by rw [hki] at h'; cases h') ho
              · exact quoted_plain hw (number_plain (intKey_number hl hki htx ho hwr))
        | struct fs =>
          have := w_tag hb hk (by simp [hkk]) h
          subst this
          have hst : IsStruct W.E t := ⟨fs, hkk⟩
          obtain ⟨l, tried, kept, q', x, c, key, lead, a1, a2, a3, a4, a5, a6, a7, a8, a9, a10, rfl⟩ := w_struct hb hst h
          have chosen : ∀ m ∈ tried, ChosenField W.U.isLetter W.U.isDigit W.E t m ∧ ¬ LeftOut o v m := fun m hm =>
            ⟨(a1.2 m).mp (a2.subset hm), (a3 m (a2.subset hm)).mp hm⟩
          have hlead : lead = [] := by
            cases a10 with
            | none => rfl
            | comma hk1 hk2 =>
              exfalso
              cases tried with
              | nil => exact hk1 (List.sublist_nil.mp a7)
              | cons m rest =>
                cases kept with
                | nil => exact hk1 rfl
                | cons k0 kept =>
                  have hpw := a1.1.sublist a2
                  rw [List.pairwise_cons] at hpw
                  have hm : m ∉ k0 :: kept := by
                    intro hmem
                    cases a7 with
                    | cons _ h' =>
                      have := hpw.1 m (h'.subset hmem)
                      exact pathLt_asymm this this
                    | cons_cons _ h' => exact hk2 rfl
                  have hmt : m ∈ m :: rest := List.mem_cons_self ..
                  have hdrop : NullDropped W.E m (c m) := Classical.byContradiction fun hd => hm ((a8 m hmt).mpr hd)
                  have hk0 : k0 ∈ m :: rest := a7.subset (List.mem_cons_self ..)
                  refine selfM (.comma hb hst (chosen m hmt).1 (chosen m hmt).2 ?_ (a4 m hmt) (a6 m hmt) hdrop (chosen k0 hk0).1 (chosen k0 hk0).2
                    (a4 k0 hk0) (a6 k0 hk0) ((a8 k0 hk0).mp (List.mem_cons_self ..)))
                  intro m0 h0 h1 hne
                  have := (a3 m0 ((a1.2 m0).mpr h0)).mpr h1
                  rcases List.mem_cons.mp this with e | h'
                  · exact absurd e hne
                  · exact hpw.1 m0 h'
          subst hlead
          refine formed_obj hw fun y hy => ?_
          obtain ⟨m, hm, rfl⟩ := List.mem_map.mp hy
          have hmt := a7.subset hm
          refine ⟨b! "\"" ++ key m ++ b! "\"", c m, strFormed_str hw (namedAs_body hU (chosen_name hN (chosen m hmt).1) (a9 m hm)),
            part (.field hb hst (chosen m hmt).1 (chosen m hmt).2 (a4 m hmt)) (Jettison.Props.fieldAt_size (a4 m hmt)) (a6 m hmt), by simp⟩
    · rcases w_meth hs hm h with ⟨rfl, rfl, g1, g2⟩ | ⟨rt, x, u, g1, g2⟩
      · exact null
      · exact meth_formed hw hs hm g1 self g2

/-- C73: the text of a value is well-formed unless something encoded with it spoils it. -/
theorem C73_text (hw : ws []) (hl : FormatContract W.fmt) (hU : TablesOk W.U.isLetter W.U.isDigit) (hN : GoNames W.U.isLetter W.U.isDigit W.E)
    (G : GoTypes W.E W.ptrTo) (ht : HasType W.E t v) (h : Writes W M o t ca q v b) (hb : ¬ Formed ws b) :
    ∃ t' ca' v', Encodes W o t ca v t' ca' v' ∧ (Spoils ws W M o t' ca' v' ∨ SpoilsMember ws W M o t' ca' v') := by
  have key : ∀ n, FormedBelow ws W M o n := by
    intro n
    induction n with
    | zero => intro _ _ _ _ _ h; exact absurd h (Nat.not_lt_zero _)
    | succ n ihn =>
      intro t ca q v b hl' ht hu h
      exact formed_step hw hl hU hN G (n := sizeOf v) (fun _ _ _ _ _ hs => ihn _ _ _ _ _ (by omega)) rfl ht hu h
  apply Classical.byContradiction
  intro hne
  exact hb (key _ _ _ _ _ _ (Nat.lt_succ_self _) ht (fun t' ca' v' h1 h2 => hne ⟨t', ca', v', h1, h2⟩) h)

theorem formed_json : Formed Ws b ↔ ∃ j, JsonText j b :=
  ⟨fun ⟨w1, s, w2, j, h1, h2, h3, h4⟩ => ⟨j, w1, s, w2, h1, h2, h3, h4⟩, fun ⟨j, w1, s, w2, h1, h2, h3, h4⟩ => ⟨w1, s, w2, j, h1, h2, h3, h4⟩⟩

theorem formed_noWs : Formed NoWs b ↔ ∃ j, CompactText j b := by
  constructor
  · rintro ⟨w1, s, w2, j, h1, h2, h3, rfl⟩
    rw [NoWs] at h1 h2
    subst h1; subst h2
    exact ⟨j, by simpa [CompactText] using h3⟩
  · rintro ⟨j, h⟩
    exact ⟨[], b, [], j, rfl, rfl, h, by simp⟩

/-- C73: if what a call writes is not JSON, something encoded with the value has spoilt it. -/
theorem C73_malformed {H : Heap} (D : WriteReady W H M) (hN : GoNames W.U.isLetter W.U.isDigit W.E) {w : Addr}
    (hx : ReprE W.E H.mem (some (t, w)) (.iface t v)) (hf : TimesFine W t v) {opts : List (Option Opt)} (ho : prepare opts = .ok o) {n : Nat} :
    (∀ b, marshalOpts W H n (some (t, w)) opts = .ret (some b) none → (¬ ∃ j, JsonText j b) →
      ∃ t' ca' v', Encodes W o t (isPtrK (W.E t).kind) v t' ca' v' ∧ (Spoils Ws W M o t' ca' v' ∨ SpoilsMember Ws W M o t' ca' v')) ∧
    (∀ dst out, appendOpts W H n dst (some (t, w)) opts = .ret (some out) none →
      ∃ b, out = dst ++ b ∧ ((¬ ∃ j, JsonText j b) → ∃ t' ca' v', Encodes W o t (isPtrK (W.E t).kind) v t' ca' v' ∧ (Spoils Ws W M o t' ca' v' ∨ SpoilsMember Ws W M o t' ca' v'))) := by
  have ht : HasType W.E t v := by
    cases repr_inIface hx with
    | val h => exact h
  have hc := C56_bytes D hx hf ho (n := n)
  have hw : Ws [] := by intro c hc; cases hc
  refine ⟨fun b h hb => C73_text hw D.fmt D.ready.tab hN D.ready.types ht (hc.1 b h) (fun h => hb (formed_json.mp h)), fun dst out h => ?_⟩
  obtain ⟨b, rfl, hw'⟩ := hc.2 dst out h
  exact ⟨b, rfl, fun hb => C73_text hw D.fmt D.ready.tab hN D.ready.types ht hw' (fun h => hb (formed_json.mp h))⟩

/-- C73: if it has whitespace outside of strings, or is not JSON, likewise. -/
theorem C73_spaced {H : Heap} (D : WriteReady W H M) (hN : GoNames W.U.isLetter W.U.isDigit W.E) {w : Addr}
    (hx : ReprE W.E H.mem (some (t, w)) (.iface t v)) (hf : TimesFine W t v) {opts : List (Option Opt)} (ho : prepare opts = .ok o) {n : Nat} :
    (∀ b, marshalOpts W H n (some (t, w)) opts = .ret (some b) none → (¬ ∃ j, CompactText j b) →
      ∃ t' ca' v', Encodes W o t (isPtrK (W.E t).kind) v t' ca' v' ∧ (Spoils NoWs W M o t' ca' v' ∨ SpoilsMember NoWs W M o t' ca' v')) ∧
    (∀ dst out, appendOpts W H n dst (some (t, w)) opts = .ret (some out) none →
      ∃ b, out = dst ++ b ∧ ((¬ ∃ j, CompactText j b) → ∃ t' ca' v', Encodes W o t (isPtrK (W.E t).kind) v t' ca' v' ∧ (Spoils NoWs W M o t' ca' v' ∨ SpoilsMember NoWs W M o t' ca' v'))) := by
  have ht : HasType W.E t v := by
    cases repr_inIface hx with
    | val h => exact h
  have hc := C56_bytes D hx hf ho (n := n)
  have hw : NoWs [] := rfl
  refine ⟨fun b h hb => C73_text hw D.fmt D.ready.tab hN D.ready.types ht (hc.1 b h) (fun h => hb (formed_noWs.mp h)), fun dst out h => ?_⟩
  obtain ⟨b, rfl, hw'⟩ := hc.2 dst out h
  exact ⟨b, rfl, fun hb => C73_text hw D.fmt D.ready.tab hN D.ready.types ht hw' (fun h => hb (formed_noWs.mp h))⟩

/-! ## The causes are causes -/

/-- What is written between quotes is JSON only if it needs no escapes. -/
theorem formed_quoted {x : Bytes} (hws : ∀ w, ws w → Ws w) (h : Formed ws (b! "\"" ++ x ++ b! "\"")) : ∃ c, unescape x = some c := by
  obtain ⟨w1, s, w2, j, h1, h2, h3, h4⟩ := h
  have e1 : w1 = [] := by
    cases w1 with
    | nil => rfl
    | cons c r =>
      have hc : c = c! '"' := by simp only [List.cons_append, List.cons.injEq] at h4; exact h4.1.symm
      have := hws _ h1 c (by simp)
      rw [hc] at this
      exact absurd this (by decide)
  have e2 : w2 = [] := by
    rcases List.eq_nil_or_concat w2 with h | ⟨r, c, h⟩
    · exact h
    · have hc : c = c! '"' := by
        have := congrArg List.getLast? h4
        rw [h] at this
        simp only [List.concat_eq_append, ← List.append_assoc, List.getLast?_append, List.getLast?_singleton] at this
        simpa using this.symm
      have := hws _ h2 c (by rw [h]; simp)
      rw [hc] at this
      exact absurd this (by decide)
  subst e1; subst e2
  simp only [List.nil_append, List.append_nil] at h4
  have hq : c! '"' ∈ s := by rw [← h4]; simp
  cases h3 with
  | null => simp at h4
  | true => simp at h4
  | false => simp at h4
  | num _ hn => exact absurd rfl (number_plain hn _ hq).2.1
  | str body c hb =>
    simp only [strToken, List.cons_append, List.nil_append, List.cons.injEq, true_and] at h4
    rw [List.append_cancel_right h4]
    exact ⟨c, hb⟩
  | arr0 | arr | obj0 | obj => simp at h4

/-- C73: the text of a part that spoils it is not JSON. -/
theorem C73_spoilt (hws : ∀ w, ws w → Ws w) (hP : PathFree M) (hs : Spoils ws W M o t ca v) (h : Writes W M o t ca false v b) : ¬ Formed ws b := by
  have called : ∀ {m rt x u}, (W.E t).special = none → Picks W.E t ca m → Receives W.E W.ptrTo t m v rt x u → MethText M o rt x m b := by
    intro m rt x u h1 h2 h3
    rcases w_meth h1 h2 h with ⟨rfl, -, g1, g2⟩ | ⟨rt', x', u', g1, g2⟩
    · cases h3 with
      | own _ h4 h5 =>
        rcases g2 with g2 | g2
        · exact absurd rfl (h5 g2)
        · exact absurd g2 h4
      | addr h4 => exact absurd g1 h4
    · obtain ⟨rfl, rfl, rfl⟩ := receives_unique h3 g1
      exact g2
  intro hb
  cases hs with
  | append h1 h2 h3 h4 h5 h6 =>
    have hm := called h1 h2 h4
    rcases h3 with rfl | rfl
    · cases hm with | ctx h' => have := (hP _ _ _ _ _ _ _).symm.trans h' |>.symm.trans h5; cases this; exact h6 hb
    · cases hm with | app h' => have := (hP _ _ _ _ _ _ _).symm.trans h' |>.symm.trans h5; cases this; exact h6 hb
  | verbatim h1 h2 h4 h5 h6 h7 =>
    have hm := called h1 h2 h4
    cases hm with
    | json h' _ hc =>
      rw [hP _ _ _ _ _ _ _, h5] at h'
      cases h'
      cases hc with
      | verbatim => exact h7 hb
      | compact h => rw [h] at h6; cases h6
  | text h1 h2 h4 h5 h6 =>
    have hm := called h1 h2 h4
    cases hm with
    | text h' =>
      rw [hP _ _ _ _ _ _ _, h5] at h'
      cases h'
      obtain ⟨c, hc⟩ := formed_quoted hws hb
      rw [hc] at h6; cases h6
  | layout h1 h2 h3 h4 =>
    obtain ⟨y, e, -, ht⟩ := w_time h1 h
    cases e
    cases ht with
    | unix h' => rw [h'] at h2; cases h2
    | rfc3339 _ h' => rw [h'] at h3; cases h3
    | nano _ h' => rw [h'] at h3; cases h3
    | layout _ h' =>
      rw [h'] at h3
      cases h3
      obtain ⟨c, hc⟩ := formed_quoted hws hb
      rw [hc] at h4; cases h4
  | number h1 _ h2 h3 =>
    obtain ⟨s, e, rfl⟩ := w_number h1 h
    cases e
    rw [if_neg h2] at hb
    exact h3 hb
  | raw h1 h2 h3 _ h4 =>
    rcases w_raw h1 h with ⟨e, -⟩ | ⟨vs, x, e, g1, g2⟩
    · cases e
    · cases e
      cases asBytes_unique h2 g1
      rw [copiedAs_unique g2 h3] at hb
      exact h4 hb
  | str h1 h2 h3 h4 =>
    rcases w_scalar h1 (by rw [h2]; rfl) h with ⟨x, e, -⟩ | ⟨x, e, -⟩ | ⟨_, x, e, -⟩ | ⟨s, c, e, g1, rfl⟩ <;> cases e
    obtain ⟨c, hc⟩ := formed_quoted hws hb
    rw [spelledAs_unique g1 (.raw h3), h4] at hc; cases hc
  | bytes h1 h2 h3 h4 h5 h6 h7 =>
    rcases w_bytes h1 h2 h3 h with ⟨e, -⟩ | ⟨vs, x, c, e, rfl, g1, g2⟩
    · cases e
    · cases e
      cases asBytes_unique h6 g1
      rcases g2 with ⟨g2, -⟩ | ⟨-, g2⟩
      · rw [h4] at g2; cases g2
      · obtain ⟨c, hc⟩ := formed_quoted hws hb
        rw [spelledAs_unique g2 (.raw h5), h7] at hc; cases hc
  | byteArray h1 h2 h3 h4 h5 h6 h7 =>
    rcases w_array h1 h2 h with ⟨vs, x, c, e, rfl, -, -, g3, g4⟩ | ⟨vs, bs, e, -, g1, -⟩
    · cases e
      cases asBytes_unique h6 g3
      obtain ⟨c, hc⟩ := formed_quoted hws hb
      rw [spelledAs_unique g4 (.raw h5), h7] at hc; cases hc
    · rw [g1 h3] at h4; cases h4

/-- C73: of a value without parts to be encoded and that is no object, the text is JSON if and only if
nothing spoils it. -/
theorem C73_leaf (hw : ws []) (hws : ∀ w, ws w → Ws w) (hP : PathFree M) (hl : FormatContract W.fmt) (hU : TablesOk W.U.isLetter W.U.isDigit)
    (hN : GoNames W.U.isLetter W.U.isDigit W.E) (G : GoTypes W.E W.ptrTo) (ht : HasType W.E t v) (hp : ∀ t' ca' v', ¬ Encodes1 W o t ca v t' ca' v')
    (ho : ¬ (ByKind W.E t ca ∧ ∃ k e, (W.E t).kind = .map k e) ∧ ¬ (ByKind W.E t ca ∧ IsStruct W.E t) ∧ (W.E t).special ≠ some .syncMap)
    (h : Writes W M o t ca false v b) : Formed ws b ↔ ¬ Spoils ws W M o t ca v := by
  refine ⟨fun hb hs => C73_spoilt hws hP hs h hb, fun hs => Classical.byContradiction fun hb => ?_⟩
  obtain ⟨t', ca', v', h1, h2⟩ := C73_text hw hl hU hN G ht h hb
  cases h1 with
  | refl =>
    rcases h2 with h2 | h2
    · exact hs h2
    · cases h2 with
      | keyStr g1 g2 => exact ho.1 ⟨g1, _, _, g2⟩
      | key g1 g2 => exact ho.1 ⟨g1, _, _, g2⟩
      | skeyStr g1 => exact ho.2.2 g1
      | skey g1 => exact ho.2.2 g1
      | comma g1 g2 => exact ho.2.1 ⟨g1, g2⟩
  | step h1 _ => exact hp _ _ _ h1

/-- The keys that C30 is restricted to are not odd. -/
theorem keyFine_even {k : TId} {c : Bool} {x : Val} (hk : KeyFine W o k x) (hnil : IsPtr W.E k → x ≠ .nil) (hks : (W.E k).kind ≠ .string)
    (hc : c = false ∨ c = isPtrK (W.E k).kind) : ¬ OddKey W o k c x := by
  intro h
  have hpick : ∀ {m}, Picks W.E k c m → Picks W.E k false m := by
    intro m hm
    rcases hc with rfl | rfl
    · exact hm
    · exact picks_ptr.mp hm
  cases h with
  | native h1 h2 h3 =>
    cases ht : (W.E k).meths.text with
    | false =>
      rcases hk.num hks ht with h | ⟨h, h'⟩
      · rw [h.special] at h1; cases h1
      · rw [h] at h1; cases h1; exact h3 ⟨rfl, h', ht⟩
    | true =>
      rcases hk.text hks ht with h | ⟨h, h'⟩
      · rw [h.1] at h1; cases h1
      · rw [h] at h1; cases h1; exact h2 ⟨rfl, h', ht⟩
  | method h1 h2 h3 =>
    cases ht : (W.E k).meths.text with
    | false =>
      rcases hk.num hks ht with h | ⟨h, h'⟩
      · exact picks_byKind (hpick h2) h
      · rw [h] at h1; cases h1
    | true =>
      rcases hk.text hks ht with h | ⟨h, h'⟩
      · exact h3 (picks_unique (hpick h2) h.2.1)
      · rw [h] at h1; cases h1
  | nilText h1 h2 h3 =>
    have ht : (W.E k).meths.text = true := by
      rcases (hpick h2).1 with h | ⟨h, -⟩
      · simpa [MethSet.Has] using h
      · cases h
    rcases h3 with h3 | h3
    · rcases hk.text hks ht with h | ⟨h, h'⟩
      · exact h.2.2 h3 rfl
      · rw [h] at h1; cases h1
    · exact hnil h3 rfl

/-- C73: the values that C30 is restricted to are not spoilt. -/
theorem C73_fine (hw : ws []) (he : bmHas o.flags .noStringEscaping = false) (hf : Fine W M o t v) :
    ¬ (Spoils ws W M o t ca v ∨ SpoilsMember ws W M o t ca v) := by
  rintro (h | h)
  · cases h with
    | append h1 h2 h3 h4 h5 h6 =>
      have := hf.meth h1 _ _ _ _ _ _ _ _ h2 h4 h5
      rcases h3 with rfl | rfl
      · obtain ⟨j, hj⟩ := this; exact h6 (formed_compact hw hj)
      · obtain ⟨j, hj⟩ := this; exact h6 (formed_compact hw hj)
    | verbatim h1 h2 h4 h5 h6 h7 => obtain ⟨j, hj⟩ := hf.meth h1 _ _ _ _ _ _ _ _ h2 h4 h5 h6; exact h7 (formed_compact hw hj)
    | text h1 h2 h4 h5 h6 => have := hf.meth h1 _ _ _ _ _ _ _ _ h2 h4 h5; rw [MethFine, h6] at this; cases this
    | layout h1 h2 h3 h4 => have := (hf.time _ rfl).layout h2 _ h3; rw [h4] at this; cases this
    | number h1 h2 h3 h4 =>
      rcases hf.number _ h1 rfl h2 with h | h
      · exact h3 h
      · exact h4 (formed_val hw (Gr.num _ h))
    | raw h1 h2 h3 h4 h5 =>
      obtain ⟨j, h6, h7⟩ := hf.raw _ _ h1 rfl h2
      cases hc : bmHas o.flags .noCompact with
      | true =>
        cases h3 with
        | verbatim => exact h5 (formed_compact hw (h7 hc))
        | compact h => rw [h] at hc; cases hc
      | false => exact h4 hc j h6
    | str _ _ h => rw [he] at h; cases h
    | bytes _ _ _ _ h => rw [he] at h; cases h
    | byteArray _ _ _ _ h => rw [he] at h; cases h
  · cases h with
    | keyStr _ _ _ h => rw [he] at h; cases h
    | skeyStr _ _ h => rw [he] at h; cases h
    | key _ h1 h2 h3 h4 h5 => exact keyFine_even (hf.key _ _ _ _ h1 rfl h3) h5 h2 (.inl rfl) h4
    | skey h1 h2 h3 h4 h5 => obtain ⟨g1, g2⟩ := hf.skey _ _ _ _ rfl h3 h4; exact keyFine_even g1 g2 h2 (.inr rfl) h5
    | comma _ h1 h2 _ _ _ _ h3 => exact hf.null _ h1 h2 h3.1 h3.2.1

end Jettison.Props
