import Verif.Props.WritesExact
import Verif.Props.Html
import Verif.Props.DocumentEx
import Verif.Props.WritesEx
import Verif.Proofs.Fixed

/-!
# C60: a text that was returned is encoded as it is

The text of a call, put in a `json.RawMessage` or returned by `MarshalJSON`, is written again as it
is by another call, whatever the options of that call and wherever the value is.
-/

namespace Jettison.Props
open Jettison Jettison.Model Jettison.Spec Jettison.Proofs

/-- The JSON text of a value, without whitespace and without any character to be escaped. -/
def Portable (b : Bytes) : Prop := (∃ j, CompactText j b) ∧ NoMarkup b ∧ NoSeparator b

variable {W : World} {M : MethV} {o : EncOpts} {t : TId} {ca q : Bool} {v : Val} {b : Bytes}

theorem portable_copied (h : Portable b) {c : Bytes} : CopiedAs o b c ↔ c = b := by
  obtain ⟨⟨j, h1⟩, h2, h3⟩ := h
  have key : CopiedAs o b b := by
    cases hc : bmHas o.flags .noCompact with
    | true => exact .verbatim hc
    | false =>
      obtain ⟨r, hr, he⟩ := appendCompactJSON_squeezed (!bmHas o.flags .noHTMLEscaping) b
      have := compact_fixed (esc := !bmHas o.flags .noHTMLEscaping) h1 ⟨fun _ => h2, h3⟩ []
      rw [he [], List.nil_append, List.nil_append] at this
      exact .compact hc (this ▸ hr)
  exact ⟨fun h => copiedAs_unique h key, fun h => h ▸ key⟩

/-- C60: wherever a `json.RawMessage` with such a text is, its text is this one. -/
theorem C60_raw_text (hs : (W.E t).special = some .rawMessage) {vs : List Val} (hv : AsBytes vs b) (hb : Portable b) (c : Bytes) :
    Writes W M o t ca q (.slice vs) c ↔ c = b := by
  constructor
  · intro h
    rcases w_raw hs h with ⟨h, -⟩ | ⟨vs', x, h, h1, h2⟩
    · cases h
    · cases h
      rw [show x = b from by
        have := h1.symm.trans hv
        exact (List.map_inj_right (by intro _ _ h; cases h; rfl)).mp this] at h2
      exact (portable_copied hb).mp h2
  · rintro rfl
    exact .raw hs hv ((portable_copied hb).mpr rfl)

/-- C60: wherever a value is on which `MarshalJSON` is called and returns such a text, its text is
this one. -/
theorem C60_method_text (hP : PathFree M) (hs : (W.E t).special = none) (hp : Picks W.E t ca .json) {rt u : TId} {x : Val}
    (hr : Receives W.E W.ptrTo t .json v rt x u) {path : List TId} (hm : M path .json none rt x [] = .ok b) (hb : Portable b) (c : Bytes) :
    Writes W M o t ca q v c ↔ c = b := by
  have key : MethText M o rt x .json b := .json hm (fun _ => hb.1.imp fun _ h => compact_isText h) ((portable_copied hb).mpr rfl)
  constructor
  · intro h
    rcases w_meth hs hp h with ⟨rfl, -, h1, h2⟩ | ⟨rt', x', u', h1, h2⟩
    · cases hr with
      | own _ h3 h4 => rcases h2 with h2 | h2 <;> first | exact absurd rfl (h4 h2) | exact absurd h2 h3
      | addr h3 => exact absurd h1 h3
    · obtain ⟨rfl, rfl, -⟩ := receives_unique hr h1
      exact methText_unique hP h2 key
  · rintro rfl
    exact .meth hs hp hr key

/-! ## Calls -/

/-- A call that ends, on a value that has one text only, returns it. -/
theorem call_text {H : Heap} (D : FaultReady W H M) (DW : WriteReady W H M) (hP : PathFree M) {w : Addr}
    (hx : ReprE W.E H.mem (some (t, w)) (.iface t v)) (hf : TimesFine W t v) {opts : List (Option Opt)} (ho : prepare opts = .ok o)
    (h : ∀ c, Writes W M o t (isPtrK (W.E t).kind) false v c ↔ c = b) (n : Nat) (dst : Bytes) (hn : marshalOpts W H n (some (t, w)) opts ≠ .nofuel) :
    marshalOpts W H n (some (t, w)) opts = .ret (some b) none ∧ appendOpts W H n dst (some (t, w)) opts = .ret (some (dst ++ b)) none := by
  obtain ⟨c, h1, h2⟩ := (C56_complete D DW hP hx hf ho ((h b).mpr rfl) n dst hn).1
  have := (h c).mp ((C56_bytes DW hx hf ho).1 c h1)
  subst this
  exact ⟨h1, h2⟩

/-- C60: a call on a `json.RawMessage` with such a text returns it, whatever the options. -/
theorem C60_raw {H : Heap} (D : FaultReady W H M) (DW : WriteReady W H M) (hP : PathFree M) {w : Addr} {vs : List Val}
    (hx : ReprE W.E H.mem (some (t, w)) (.iface t (.slice vs))) (hf : TimesFine W t (.slice vs)) {opts : List (Option Opt)} (ho : prepare opts = .ok o)
    (hs : (W.E t).special = some .rawMessage) (hv : AsBytes vs b) (hb : Portable b) (n : Nat) (dst : Bytes)
    (hn : marshalOpts W H n (some (t, w)) opts ≠ .nofuel) :
    marshalOpts W H n (some (t, w)) opts = .ret (some b) none ∧ appendOpts W H n dst (some (t, w)) opts = .ret (some (dst ++ b)) none :=
  call_text D DW hP hx hf ho (C60_raw_text hs hv hb) n dst hn

/-- C60: a call on a value whose `MarshalJSON` returns such a text returns it, whatever the options. -/
theorem C60_method {H : Heap} (D : FaultReady W H M) (DW : WriteReady W H M) (hP : PathFree M) {w : Addr}
    (hx : ReprE W.E H.mem (some (t, w)) (.iface t v)) (hf : TimesFine W t v) {opts : List (Option Opt)} (ho : prepare opts = .ok o)
    (hs : (W.E t).special = none) (hp : Picks W.E t (isPtrK (W.E t).kind) .json) {rt u : TId} {x : Val} (hr : Receives W.E W.ptrTo t .json v rt x u)
    {path : List TId} (hm : M path .json none rt x [] = .ok b) (hb : Portable b) (n : Nat) (dst : Bytes)
    (hn : marshalOpts W H n (some (t, w)) opts ≠ .nofuel) :
    marshalOpts W H n (some (t, w)) opts = .ret (some b) none ∧ appendOpts W H n dst (some (t, w)) opts = .ret (some (dst ++ b)) none :=
  call_text D DW hP hx hf ho (C60_method_text hP hs hp hr hm hb) n dst hn

/-! ## What a call returns -/

/-- C60: what a call returns is such a text, when strings are escaped, with HTML and UTF-8, on
data that is encoded as JSON (C30), as long as the texts copied as they are have nothing to be
escaped. -/
theorem C60_result {H : Heap} (D : FaultReady W H M) (DD : DocReady W H M o) {w : Addr} (hx : ReprE W.E H.mem (some (t, w)) (.iface t v))
    (hf : AllFine W M o t v) {opts : List (Option Opt)} (ho : prepare opts = .ok o) (hh : bmHas o.flags .noHTMLEscaping = false)
    (hu : bmHas o.flags .noUTF8Coercion = false)
    (hT : ∀ t' ca' v' b, Encodes W o t (isPtrK (W.E t).kind) v t' ca' v' → Taken W M o t' ca' v' b → ValidUtf8 b ∧ NoMarkup b ∧ NoSeparator b)
    (hR : ∀ t' ca' v' b, Encodes W o t (isPtrK (W.E t).kind) v t' ca' v' → Relayed W M o t' ca' v' b → ValidUtf8 b) {n : Nat}
    (h : marshalOpts W H n (some (t, w)) opts = .ret (some b) none) : Portable b := by
  obtain ⟨j, h1, -⟩ := (C30_document_partial DD hx hf ho).1 b h
  exact ⟨⟨j, h1⟩, ((C52_embeddable D DD.names hx ho DD.escaping hh hu n [] hT hR).1 b h).2⟩

/-- C60: if `MarshalJSON` of a value returns what a call returned for another value, a call on it
returns the same, whatever the options. -/
theorem C60_delegate {W₁ : World} {H₁ H : Heap} {M₁ : MethV} {o₁ : EncOpts} {t₁ : TId} {v₁ : Val} (D₁ : FaultReady W₁ H₁ M₁) (DD₁ : DocReady W₁ H₁ M₁ o₁) {w₁ : Addr}
    (hx₁ : ReprE W₁.E H₁.mem (some (t₁, w₁)) (.iface t₁ v₁)) (hf₁ : AllFine W₁ M₁ o₁ t₁ v₁) {opts₁ : List (Option Opt)} (ho₁ : prepare opts₁ = .ok o₁)
    (hh₁ : bmHas o₁.flags .noHTMLEscaping = false) (hu₁ : bmHas o₁.flags .noUTF8Coercion = false)
    (hT₁ : ∀ t' ca' v' b, Encodes W₁ o₁ t₁ (isPtrK (W₁.E t₁).kind) v₁ t' ca' v' → Taken W₁ M₁ o₁ t' ca' v' b → ValidUtf8 b ∧ NoMarkup b ∧ NoSeparator b)
    (hR₁ : ∀ t' ca' v' b, Encodes W₁ o₁ t₁ (isPtrK (W₁.E t₁).kind) v₁ t' ca' v' → Relayed W₁ M₁ o₁ t' ca' v' b → ValidUtf8 b) {n₁ : Nat}
    (h₁ : marshalOpts W₁ H₁ n₁ (some (t₁, w₁)) opts₁ = .ret (some b) none)
    (D : FaultReady W H M) (DW : WriteReady W H M) (hP : PathFree M) {w : Addr}
    (hx : ReprE W.E H.mem (some (t, w)) (.iface t v)) (hf : TimesFine W t v) {opts : List (Option Opt)} (ho : prepare opts = .ok o)
    (hs : (W.E t).special = none) (hp : Picks W.E t (isPtrK (W.E t).kind) .json) {rt u : TId} {x : Val} (hr : Receives W.E W.ptrTo t .json v rt x u)
    {path : List TId} (hm : M path .json none rt x [] = .ok b) (n : Nat) (dst : Bytes) (hn : marshalOpts W H n (some (t, w)) opts ≠ .nofuel) :
    marshalOpts W H n (some (t, w)) opts = .ret (some b) none ∧ appendOpts W H n dst (some (t, w)) opts = .ret (some (dst ++ b)) none :=
  C60_method D DW hP hx hf ho hs hp hr hm (C60_result D₁ DD₁ hx₁ hf₁ ho₁ hh₁ hu₁ hT₁ hR₁ h₁) n dst hn

/-! ## Examples -/

theorem markV_type : HasType shopW.E 60 markV := by
  rcases reprE_cases markV_holds with h | ⟨d, y, h, p, hp⟩
  · cases h
  · cases h; exact repr_hasType hp

/-- The hypotheses of `C60_result`: a call that meets bytes that are not UTF-8, markup and the
methods of other types. -/
theorem mark_portable : Portable (b! "{\"\\u003ck\\u003e\":[1,2],\"\\ufffd\\u0026\\u2028\":\"\\u003c \\u0026\"}") :=
  C60_result (opts := []) (o := defaultEncOpts) (shop_faults markCells)
    ⟨shop_ready _, toyFmt_contract, shop_honest _, shop_honestM, shop_names, shop_order, shop_valid, by decide +kernel⟩ markV_holds
    (fun _ _ h => fineB_fine (allParts_within (n := 6) (P := fineB) (by decide +kernel) h)) rfl (by decide) (by decide)
    (fun t' ca' v' b h hb => absurd hb (taken_default (markV_copier (encodes_within (shop_ready markCells).types h markV_type))))
    (fun t' ca' v' b h hb => markV_relayed h hb) (n := 9) markV_text

/-- `MarshalJSON` returns what the call on `markV` returned. -/
def relayMeth : MethKind → Option Ctx → TId → Option Bytes → Bytes → MethRes
  | .json, _, _, _, _ => .ok (b! "{\"\\u003ck\\u003e\":[1,2],\"\\ufffd\\u0026\\u2028\":\"\\u003c \\u0026\"}")
  | m, c, t, s, dst => shopMeth m c t s dst

theorem relay_honestM : HonestAppend (univM relayMeth) := by
  rintro path m ctx t w (rfl | rfl)
  · exact .inr <| .inr ⟨b! "7", fun dst => rfl⟩
  · exact .inr <| .inr ⟨b! "8", fun dst => rfl⟩

theorem relay_honest (cells : List (Addr × Cell)) : HonestAppend (univHeap shopDefs relayMeth cells).meth := by
  rintro path m ctx t w (rfl | rfl)
  · exact .inr <| .inr ⟨b! "7", fun dst => rfl⟩
  · exact .inr <| .inr ⟨b! "8", fun dst => rfl⟩

/-- The hypotheses of `C60_delegate`: a `Loud` whose `MarshalJSON` returns what the call on `markV`
returned, with options of its own. -/
example : appendOpts shopW (univHeap shopDefs relayMeth [(500, .str (b! "x"))]) 9 (b! "y") (some (22, 500)) [some (.flag .noHTMLEscaping), some (.flag .noUTF8Coercion)] =
    .ret (some (b! "y" ++ b! "{\"\\u003ck\\u003e\":[1,2],\"\\ufffd\\u0026\\u2028\":\"\\u003c \\u0026\"}")) none :=
  (C60_delegate (opts₁ := []) (o₁ := defaultEncOpts) (shop_faults markCells)
    ⟨shop_ready _, toyFmt_contract, shop_honest _, shop_honestM, shop_names, shop_order, shop_valid, by decide +kernel⟩ markV_holds
    (fun _ _ h => fineB_fine (allParts_within (n := 6) (P := fineB) (by decide +kernel) h)) rfl (by decide) (by decide)
    (fun t' ca' v' b h hb => absurd hb (taken_default (markV_copier (encodes_within (shop_ready markCells).types h markV_type))))
    (fun t' ca' v' b h hb => markV_relayed h hb) (n₁ := 9) markV_text
    (M := univM relayMeth) ⟨univ_ready shop_ok relayMeth _, toyFmt_contract, relay_honestM, shop_order, shop_valid, shop_std⟩
    ⟨univ_ready shop_ok relayMeth _, toyFmt_contract, relay_honest _, relay_honestM, shop_order, shop_valid⟩ (fun _ _ _ _ _ _ _ => rfl)
    (v := .str (b! "x")) (univ_repr 8 (by decide +kernel)) (timesB_fine (n := 6) (by decide +kernel)) rfl rfl (by decide +kernel)
    (.own (by decide +kernel) (by rintro ⟨n, h⟩; cases h) (by rintro ⟨n, h⟩; cases h)) (path := []) rfl 9 (b! "y") (by decide +kernel)).2

/-- The hypotheses of `C60_raw`. -/
example : marshalOpts shopW (shopH [(100, .slice 200 5), (200, .int (.uint8 0x5B)), (201, .int (.uint8 0x31)), (202, .int (.uint8 0x2C)), (203, .int (.uint8 0x32)), (204, .int (.uint8 0x5D))])
    9 (some (52, 100)) [] = .ret (some (b! "[1,2]")) none :=
  (C60_raw (b := b! "[1,2]") (opts := []) (shop_faults _) (shop_writes _) shop_pathFree
    (vs := [.int (.uint8 0x5B), .int (.uint8 0x31), .int (.uint8 0x2C), .int (.uint8 0x32), .int (.uint8 0x5D)])
    (shop_holds 8 (by decide +kernel)) (timesB_fine (n := 6) (by decide +kernel)) rfl rfl rfl
    ⟨⟨_, (C30_document_partial (opts := []) (o := defaultEncOpts) (H := shopH [(500, .slice 520 2), (520, .int (.int 1)), (528, .int (.int 2))])
        ⟨shop_ready _, toyFmt_contract, shop_honest _, shop_honestM, shop_names, shop_order, shop_valid, by decide +kernel⟩ (t := 56) (w := 500)
        (v := .slice [.int (.int 1), .int (.int 2)]) (shop_holds 8 (by decide +kernel))
        (fun _ _ h => fineB_fine (allParts_within (n := 6) (P := fineB) (by decide +kernel) h)) rfl (n := 9)).1 (b! "[1,2]") (by decide +kernel) |>.choose_spec.1⟩,
      by decide +kernel, by unfold NoSeparator; decide +kernel⟩ 9 [] (by decide +kernel)).1

/-- Without HTML escaping in the first call, the second one writes another text of the same value. -/
theorem C60_html_needed : ∃ (W : World) (H H' : Heap) (M : MethV) (t : TId) (w w' : Addr) (b : Bytes) (vs : List Val),
    ReprE W.E H'.mem (some (t, w')) (.iface t (.slice vs)) ∧ (W.E t).special = some .rawMessage ∧ AsBytes vs b ∧ Ready W H M ∧ Ready W H' M ∧
    marshalOpts W H 9 (some (2, w)) [some (.flag .noHTMLEscaping)] = .ret (some b) none ∧
    marshalOpts W H' 9 (some (t, w')) [] ≠ .ret (some b) none :=
  ⟨shopW, shopH [(100, .str (b! "<"))], shopH [(100, .slice 200 3), (200, .int (.uint8 0x22)), (201, .int (.uint8 0x3C)), (202, .int (.uint8 0x22))], univM shopMeth,
    52, 100, 100, b! "\"<\"", [.int (.uint8 0x22), .int (.uint8 0x3C), .int (.uint8 0x22)], shop_holds 8 (by decide +kernel), rfl, rfl, shop_ready _, shop_ready _,
    by decide +kernel, by decide +kernel⟩

end Jettison.Props
