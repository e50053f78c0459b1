import Verif.Proofs.Alphabet
import Verif.Props.Faults

/-!
# The bytes of the output (C52, C53)

`Taken` and `Relayed` (Spec/Html) are the texts that are not the encoder's own.
-/

namespace Jettison.Props
open Jettison Jettison.Spec Jettison.Model Jettison.Proofs

variable {W : World} {H : Heap} {M : MethV} {o : EncOpts} {P : Bytes → Prop} {t : TId} {v : Val}

/-- The text that either call appends has the property. -/
def CallsHave (P : Bytes → Prop) (W : World) (H : Heap) (n : Nat) (x : Option (TId × Addr)) (opts : List (Option Opt)) (dst : Bytes) : Prop :=
  (∀ b, marshalOpts W H n x opts = .ret (some b) none → P b) ∧
  ∀ b, appendOpts W H n dst x opts = .ret (some b) none → ∃ c, b = dst ++ c ∧ P c

theorem calls_letters (L : Letters W o P) (D : FaultReady W H M) {w : Addr} (hx : ReprE W.E H.mem (some (t, w)) (.iface t v)) {opts : List (Option Opt)}
    (ho : prepare opts = .ok o) (n : Nat) (dst : Bytes) (hF : AllForeign P W M o t (isPtrK (W.E t).kind) v) : CallsHave P W H n (some (t, w)) opts dst := by
  have key : ∀ b, appendJSON W (run W H o n) [] (some (t, w)) [] = .ok b → P b := by
    intro b h
    rw [appendJSON_eq (run_agrees D.ready n).2 hx] at h
    rcases reprE_cases hx with h' | ⟨d, y, h', hp⟩
    · cases h'
    · cases h'
      exact held_letters (spells_upto L D n) hp hF h
  obtain ⟨e1, e2⟩ := calls_by D.fmt D hx ho n dst
  constructor
  · intro b h
    rw [e1] at h
    cases hr : appendJSON W (run W H o n) [] (some (t, w)) [] with
    | ok c => rw [hr] at h; cases h; exact key _ hr
    | _ => rw [hr] at h; cases h
  · intro b h
    rw [e2] at h
    cases hr : appendJSON W (run W H o n) [] (some (t, w)) [] with
    | ok c => rw [hr] at h; cases h; exact ⟨c, rfl, key _ hr⟩
    | _ => rw [hr] at h; cases h

/-- C52: with string and HTML escaping on, there is no `<`, `>` or `&` in what a call appends
unless it is in a text that is copied as it is. What a `MarshalJSON` method returned and a
`json.RawMessage` contain is of no matter, nor whether UTF-8 is coerced. -/
theorem C52_markup (D : FaultReady W H M) {w : Addr} (hx : ReprE W.E H.mem (some (t, w)) (.iface t v)) {opts : List (Option Opt)}
    (ho : prepare opts = .ok o) (hs : bmHas o.flags .noStringEscaping = false) (hh : bmHas o.flags .noHTMLEscaping = false) (n : Nat) (dst : Bytes)
    (hT : ∀ t' ca' v' b, Encodes W o t (isPtrK (W.E t).kind) v t' ca' v' → Taken W M o t' ca' v' b → NoMarkup b) :
    CallsHave NoMarkup W H n (some (t, w)) opts dst := by
  refine calls_letters (letters_markup hs hh) D hx ho n dst fun t' ca' v' h => ⟨fun b hb => hT _ _ _ b h hb, fun b _ => ?_⟩
  rw [hh]
  obtain ⟨out, h1, h2⟩ := C47_compact_html_safe [] b
  rw [show (!false) = true from rfl, h1, List.nil_append]
  exact noMarkup_iff.mpr h2

/-- C52: with UTF-8 coercion on as well, what a call appends can be put in a page or a script: it
is valid UTF-8 without `<`, `>`, `&`, U+2028 and U+2029, if that holds for the texts copied as they
are, and those that are compacted are valid UTF-8. -/
theorem C52_embeddable (D : FaultReady W H M) (hg : GoNames W.U.isLetter W.U.isDigit W.E) {w : Addr} (hx : ReprE W.E H.mem (some (t, w)) (.iface t v))
    {opts : List (Option Opt)} (ho : prepare opts = .ok o) (hs : bmHas o.flags .noStringEscaping = false) (hh : bmHas o.flags .noHTMLEscaping = false)
    (hu : bmHas o.flags .noUTF8Coercion = false) (n : Nat) (dst : Bytes)
    (hT : ∀ t' ca' v' b, Encodes W o t (isPtrK (W.E t).kind) v t' ca' v' → Taken W M o t' ca' v' b → ValidUtf8 b ∧ NoMarkup b ∧ NoSeparator b)
    (hR : ∀ t' ca' v' b, Encodes W o t (isPtrK (W.E t).kind) v t' ca' v' → Relayed W M o t' ca' v' b → ValidUtf8 b) :
    CallsHave (fun b => ValidUtf8 b ∧ NoMarkup b ∧ NoSeparator b) W H n (some (t, w)) opts dst := by
  have h := calls_letters (letters_fine hg hs hh hu) D hx ho n dst fun t' ca' v' h =>
    ⟨fun b hb => markup_spelled (hT _ _ _ b h hb).1 (hT _ _ _ b h hb).2.1 (hT _ _ _ b h hb).2.2,
      fun b hb => by rw [hh]; exact compact_spelled true (hR _ _ _ b h hb)⟩
  have key : ∀ b, Spelled (Fine true) b → ValidUtf8 b ∧ NoMarkup b ∧ NoSeparator b := fun b hb =>
    ⟨spelled_valid.mp (spelled_mono hb fun _ _ => trivial), spelled_markup hb⟩
  exact ⟨fun b hb => key b (h.1 b hb), fun b hb => by obtain ⟨c, h1, h2⟩ := h.2 b hb; exact ⟨c, h1, key c h2⟩⟩

/-- C53: with UTF-8 coercion and string escaping on, whatever bytes the strings have, what a call
appends is valid UTF-8, if the texts are that are not the encoder's own. -/
theorem C53_utf8 (D : FaultReady W H M) (hg : GoNames W.U.isLetter W.U.isDigit W.E) {w : Addr} (hx : ReprE W.E H.mem (some (t, w)) (.iface t v))
    {opts : List (Option Opt)} (ho : prepare opts = .ok o) (hs : bmHas o.flags .noStringEscaping = false)
    (hu : bmHas o.flags .noUTF8Coercion = false) (n : Nat) (dst : Bytes)
    (hT : ∀ t' ca' v' b, Encodes W o t (isPtrK (W.E t).kind) v t' ca' v' → Taken W M o t' ca' v' b ∨ Relayed W M o t' ca' v' b → ValidUtf8 b) :
    CallsHave ValidUtf8 W H n (some (t, w)) opts dst :=
  calls_letters (letters_valid hg hs hu) D hx ho n dst fun t' ca' v' h =>
    ⟨fun b hb => hT _ _ _ b h (.inl hb),
      fun b hb => spelled_valid.mp (spelled_mono (compact_spelled _ (hT _ _ _ b h (.inr hb))) fun _ _ => trivial)⟩

/-! ## The default options -/

/-- No method is called whose text is copied as it is. -/
def NoCopier (E : Env) (t : TId) : Prop :=
  (E t).meths.appendCtx = false ∧ (E t).meths.append = false ∧ (E t).meths.text = false ∧
  (E t).pmeths.appendCtx = false ∧ (E t).pmeths.append = false ∧ (E t).pmeths.text = false

theorem taken_default {ca : Bool} {b : Bytes} (hc : (W.E t).special = none → NoCopier W.E t) : ¬ Taken W M defaultEncOpts t ca v b := by
  intro h
  cases h with
  | method hs hp hm =>
    obtain ⟨h1, h2, h3, h4, h5, h6⟩ := hc hs
    rcases hp.1 with h | ⟨-, -, h⟩ <;> rcases h with ⟨-, h⟩ | ⟨-, h⟩ | ⟨h, -⟩ | ⟨-, h⟩ <;> first | exact hm h | simp_all
  | json _ _ _ _ h => exact absurd h (by decide)
  | raw _ _ h => exact absurd h (by decide)
  | number _ h => exact absurd h (by decide)
  | layout _ _ h => exact absurd h (by rw [show defaultEncOpts.layout = .rfc3339Nano by decide]; simp)

/-- C52 for `Marshal` and `Append` without options, on a value in which no type has a method other
than `MarshalJSON`: no `<`, `>` or `&`, whatever the strings, the raw messages and the results of
the methods are. -/
theorem C52_default (D : FaultReady W H M) {w : Addr} (hx : ReprE W.E H.mem (some (t, w)) (.iface t v)) (n : Nat) (dst : Bytes)
    (hc : ∀ t' v', Within W.E t v t' v' → (W.E t').special = none → NoCopier W.E t') : CallsHave NoMarkup W H n (some (t, w)) [] dst := by
  have hty : HasType W.E t v := by
    rcases reprE_cases hx with h | ⟨d, y, h, p, hp⟩
    · cases h
    · cases h; exact repr_hasType hp
  refine C52_markup D hx (o := defaultEncOpts) rfl (by decide) (by decide) n dst fun t' ca' v' b h hb => ?_
  exact absurd hb (taken_default (hc _ _ (encodes_within D.ready.types h hty)))

/-! ## Examples -/

/-- A `map[string]interface{}` with markup in a key, in a string of an `Item`, in a raw message and
in what `MarshalJSON` of a `Loud` returns, and with bytes that are not UTF-8. -/
def markCells : List (Addr × Cell) :=
  [(100, .hmap [(110, 120), (140, 150)]), (110, .str (b! "<k>")), (140, .str [0xFF, 0x26, 0xE2, 0x80, 0xA8]), (120, .eface (some (22, 500))), (150, .eface (some (52, 600))),
   (500, .str (b! "lo<ud")), (600, .slice 620 5), (620, .int (.uint8 0x22)), (621, .int (.uint8 0x3C)), (622, .int (.uint8 0x20)),
   (623, .int (.uint8 0x26)), (624, .int (.uint8 0x22))]

def markV : Val :=
  .map [(.str (b! "<k>"), .iface 22 (.str (b! "lo<ud"))), (.str [0xFF, 0x26, 0xE2, 0x80, 0xA8], .iface 52 (.slice
    [.int (.uint8 0x22), .int (.uint8 0x3C), .int (.uint8 0x20), .int (.uint8 0x26), .int (.uint8 0x22)]))]

theorem markV_holds : ReprE shopW.E (shopH markCells).mem (some (60, 100)) (.iface 60 markV) := shop_holds 9 (by decide +kernel)

/-- No copied text, and raw messages in ASCII. -/
def copierB (t : TId) (v : Val) : Bool :=
  ((shopW.E t).special.isSome || !((shopW.E t).meths.appendCtx || (shopW.E t).meths.append || (shopW.E t).meths.text ||
    (shopW.E t).pmeths.appendCtx || (shopW.E t).pmeths.append || (shopW.E t).pmeths.text)) &&
  (match v with | .slice vs => (shopW.E t).special.isNone || vs.all (fun x => match x with | .int (.uint8 u) => decide (u.toNat < 0x80) | _ => false) | _ => true)

theorem markV_parts : ∀ t' v', Within shopW.E 60 markV t' v' → copierB t' v' = true :=
  fun _ _ h => allParts_within (n := 6) (P := copierB) (by decide +kernel) h

theorem markV_copier {t' : TId} {v' : Val} (h : Within shopW.E 60 markV t' v') (hs : (shopW.E t').special = none) : NoCopier shopW.E t' := by
  have := markV_parts _ _ h
  simp only [copierB, hs, Option.isSome_none, Bool.false_or, Bool.and_eq_true, Bool.not_eq_true', Bool.or_eq_false_iff, and_assoc] at this
  obtain ⟨h1, h2, h3, h4, h5, h6, -⟩ := this
  exact ⟨h1, h2, h3, h4, h5, h6⟩

/-- The hypotheses of `C52_default`. -/
example : CallsHave NoMarkup shopW (shopH markCells) 9 (some (60, 100)) [] (b! "x") :=
  C52_default (shop_faults markCells) markV_holds 9 _ fun _ _ h hs => markV_copier h hs

/-- The text. -/
theorem markV_text : marshalOpts shopW (shopH markCells) 9 (some (60, 100)) [] =
    .ret (some (b! "{\"\\u003ck\\u003e\":[1,2],\"\\ufffd\\u0026\\u2028\":\"\\u003c \\u0026\"}")) none := by decide +kernel

theorem ascii_valid {b : Bytes} (h : ∀ c ∈ b, c.toNat < 0x80) : ValidUtf8 b := ⟨_, spells_ascii b h⟩

theorem markV_relayed {t' : TId} {ca' : Bool} {v' : Val} {b : Bytes} (h : Encodes shopW defaultEncOpts 60 false markV t' ca' v')
    (hr : Relayed shopW (univM shopMeth) defaultEncOpts t' ca' v' b) : ValidUtf8 b := by
  have hty : HasType shopW.E 60 markV := by
    rcases reprE_cases markV_holds with h | ⟨d, y, h, p, hp⟩
    · cases h
    · cases h; exact repr_hasType hp
  have hw := markV_parts _ _ (encodes_within (shop_ready markCells).types h hty)
  cases hr with
  | json _ _ _ hM =>
    simp only [univM, shopMeth] at hM
    split at hM
    · cases hM
    split at hM
    · cases hM
    · cases hM
      split <;> exact ascii_valid (by decide)
  | raw hs ha =>
    simp only [copierB, hs, Option.isSome_some, Bool.true_or, Bool.true_and, Option.isNone_some, Bool.false_or, List.all_eq_true] at hw
    rw [ha] at hw
    exact ascii_valid fun c hc => by simpa using hw _ (List.mem_map_of_mem hc)

/-- The hypotheses of `C52_embeddable`. -/
example : CallsHave (fun b => ValidUtf8 b ∧ NoMarkup b ∧ NoSeparator b) shopW (shopH markCells) 9 (some (60, 100)) [] (b! "x") := by
  have hty : HasType shopW.E 60 markV := by
    rcases reprE_cases markV_holds with h | ⟨d, y, h, p, hp⟩
    · cases h
    · cases h; exact repr_hasType hp
  exact C52_embeddable (o := defaultEncOpts) (shop_faults markCells) shop_names markV_holds rfl (by decide) (by decide) (by decide) 9 _
    (fun t' ca' v' b h hb => absurd hb (taken_default (markV_copier (encodes_within (shop_ready markCells).types h hty))))
    (fun t' ca' v' b h hb => markV_relayed h hb)

/-- The hypotheses of `C53_utf8`. -/
example : CallsHave ValidUtf8 shopW (shopH markCells) 9 (some (60, 100)) [] (b! "x") := by
  have hty : HasType shopW.E 60 markV := by
    rcases reprE_cases markV_holds with h | ⟨d, y, h, p, hp⟩
    · cases h
    · cases h; exact repr_hasType hp
  exact C53_utf8 (o := defaultEncOpts) (shop_faults markCells) shop_names markV_holds rfl (by decide) (by decide) 9 _
    (fun t' ca' v' b h hb => hb.elim (fun hb => absurd hb (taken_default (markV_copier (encodes_within (shop_ready markCells).types h hty))))
      fun hb => markV_relayed h hb)

/-- Each option that is required to be off matters, and so does what `MarshalText` returns. -/
theorem C52_options_wrong :
    marshalOpts shopW (shopH [(500, .str (b! "<"))]) 9 (some (2, 500)) [some (.flag .noHTMLEscaping)] = .ret (some (b! "\"<\"")) none ∧
    marshalOpts shopW (shopH [(500, .str (b! "<"))]) 9 (some (2, 500)) [some (.flag .noStringEscaping)] = .ret (some (b! "\"<\"")) none ∧
    marshalOpts shopW (shopH [(500, .str [0xE2, 0x80, 0xA8])]) 9 (some (2, 500)) [some (.flag .noUTF8Coercion)] = .ret (some [0x22, 0xE2, 0x80, 0xA8, 0x22]) none ∧
    marshalOpts shopW (shopH [(500, .str (b! "<"))]) 9 (some (24, 500)) [] = .ret (some (b! "\"<\"")) none := by
  decide +kernel

end Jettison.Props
