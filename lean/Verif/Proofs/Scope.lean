import Verif.Spec.Scope
import Verif.Proofs.Parts
import Verif.Proofs.Options

/-! # Options act only on the values they are about -/

namespace Jettison.Proofs
open Jettison Jettison.Spec Jettison.Model

variable {E : Env} {W : World} {M : MethV} {o : EncOpts} {rec : RecV} {pt : TId → TId} {t : TId} {v : Val} {x : Opt}

theorem has_set (b : UInt64) (f g : Flag) : f = g ∨ bmHas (bmSet b f) g = bmHas b g := by
  by_cases h : f = g
  · exact .inl h
  · exact .inr (by simp [bmHas_set, h])

theorem has_run (x : Opt) (o : EncOpts) (g : Flag) : x = .flag g ∨ bmHas (x.run o).flags g = bmHas o.flags g := by
  cases x with
  | flag f =>
    rcases has_set o.flags f g with rfl | h
    · exact .inl rfl
    · exact .inr h
  | _ => exact .inr rfl

/-- The option is about escaping. -/
def EscOpt (x : Opt) : Prop := x = .flag .noStringEscaping ∨ x = .flag .noHTMLEscaping ∨ x = .flag .noUTF8Coercion

theorem esc_run (x : Opt) (o : EncOpts) : EscOpt x ∨ (x.run o).esc = o.esc := by
  rcases has_run x o .noStringEscaping with h | h1
  · exact .inl (.inl h)
  rcases has_run x o .noHTMLEscaping with h | h2
  · exact .inl (.inr (.inl h))
  rcases has_run x o .noUTF8Coercion with h | h3
  · exact .inl (.inr (.inr h))
  · exact .inr (by simp only [EncOpts.esc, h1, h2, h3])

theorem escOpt_touched (hx : EscOpt x) (h : StringLike E t) : Touched E x t v := by
  rcases hx with rfl | rfl | rfl
  · exact h
  · exact .inl h
  · exact h

/-- No value like those the option is about, here or inside. -/
def Untouched (E : Env) (x : Opt) (t : TId) (v : Val) : Prop := ∀ t' v', Within E t v t' v' → ¬ Touched E x t' v'

theorem untouched_part {t' : TId} {v' : Val} (h : Untouched E x t v) (hp : Part E t v t' v') : Untouched E x t' v' :=
  fun _ _ hw => h _ _ (within_trans (.step .refl hp) hw)

theorem untouched_here (h : Untouched E x t v) : ¬ Touched E x t v := h _ _ .refl

theorem entries_run (hu : x ≠ .flag .unsortedMap) {α : Type} (kf vf : Nat → α → Bytes → Res) (es : List α) (dst : Bytes) :
    encodeEntries W (x.run o) kf vf es dst = encodeEntries W o kf vf es dst := by
  rcases has_run x o .unsortedMap with h | h
  · exact absurd h hu
  · simp only [encodeEntries, h]

theorem structV_run (h1 : ∀ name, (x.run o).isDeniedField name = o.isDeniedField name) (h2 : ∀ name, fieldKey (x.run o) name = fieldKey o name)
    {path : Path} : ∀ (fs : List FInstr) (i : Nat) (first : Bool) (dst : Bytes),
    structLoopV (x.run o) rec path v i fs first dst = structLoopV o rec path v i fs first dst
  | [], _, _, _ => rfl
  | f :: fs, i, first, dst => by
    have hf : fieldV (x.run o) f v = fieldV o f v := by simp only [fieldV, h1]
    simp only [structLoopV, hf, h2, structV_run h1 h2 fs]

theorem syncKeyV_run (hu : Untouched W.E x t v) {kvs : List (Val × Val)} (hv : v = .smap kvs) {kv : Val × Val} (hkv : kv ∈ kvs) (path : Path)
    (dst : Bytes) : appendSyncMapKeyV W (x.run o) rec path kv.1 dst = appendSyncMapKeyV W o rec path kv.1 dst := by
  obtain ⟨k, w⟩ := kv
  subst hv
  cases k with
  | iface d y =>
    simp only [appendSyncMapKeyV]
    rcases esc_run x o with he | he
    · have hns : isStringK (W.E d).kind = false := by
        cases hk : (W.E d).kind <;> simp [isStringK]
        exact hu _ _ (.step .refl (.skey hkv rfl)) (escOpt_touched he (.inl hk))
      simp only [hns, Bool.false_eq_true, if_false]
    · simp only [he]
  | _ => rfl

theorem callMeth_run (hh : ¬ Touched W.E x t v) {m : MethKind} (hm : Customized W.E t m) (u : TId) (call : Option Ctx → Bytes → MethRes)
    (dst : Bytes) : callMeth W (x.run o) m u call dst = callMeth W o m u call dst := by
  cases m with
  | appendCtx =>
    cases x with
    | withContext c => exact absurd hm hh
    | _ => rfl
  | append => rfl
  | text => rfl
  | json =>
    rcases has_run x o .noCompact with rfl | h
    · exact absurd (.inr hm) hh
    · rcases has_run x o .noHTMLEscaping with rfl | h'
      · exact absurd (.inr (.inr (.inr hm))) hh
      · simp only [callMeth, relayJSON, h, h']

theorem execV_scope (G : GoTypes W.E pt) {ca : Bool} {i : Instr} (hty : TypedI W.E t ca i) (hv : HasType W.E t v)
    (hu : Untouched W.E x t v) (path : Path) (dst : Bytes) :
    execV W M (x.run o) rec path i v dst = execV W M o rec path i v dst := by
  have hh := untouched_here hu
  rcases hty with hty | ⟨j, rfl, hj⟩
  · cases hty with
    | @goType _ _ s hs =>
      cases s with
      | syncMap =>
        obtain ⟨kvs, rfl, -, -⟩ := has_smap G hs hv
        simp only [execV, encodeSpecialV]
        rw [entries_run (by rintro rfl; exact hh (.inr hs))]
        exact entries_mem path (fun a ha n dst => syncKeyV_run hu rfl ha _ _) (fun a ha n dst => rfl) dst
      | time =>
        obtain ⟨y, rfl⟩ := has_time G hs hv
        rcases has_run x o .unixTime with rfl | h
        · exact absurd hs hh
        · cases x with
          | timeLayout l => exact absurd hs hh
          | _ => simp only [execV, encodeSpecialV, h]; rfl
      | duration =>
        have hd : (x.run o).durFmt = o.durFmt := by
          cases x with
          | durationFormat f => exact absurd hs hh
          | _ => rfl
        simp only [execV]
        cases v with
        | int y => cases y <;> simp only [encodeSpecialV, hd]
        | _ => rfl
      | number =>
        rcases has_run x o .noNumberValidation with rfl | h
        · exact absurd hs hh
        · cases v <;> simp only [execV, encodeSpecialV, h]
      | rawMessage =>
        rcases has_run x o .noCompact with rfl | h
        · exact absurd (.inl hs) hh
        · rcases has_run x o .noHTMLEscaping with rfl | h'
          · exact absurd (.inr (.inr (.inl hs))) hh
          · simp only [execV, encodeSpecialV, encodeRawMessage, h, h']
    | @marsh _ _ m hm hs =>
      simp only [execV, encodeMarshalerV, callMeth_run hh (.inl hm)]
    | marshP hn hm hc hk hs => simp only [execV, encodeMarshalerV, callMeth_run hh (.inr hm)]
    | string hk =>
      rcases esc_run x o with he | he
      · exact absurd (escOpt_touched he (.inl hk)) hh
      · simp only [execV, he]
    | quotedString hk =>
      rcases esc_run x o with he | he
      · exact absurd (escOpt_touched he (.inl hk)) hh
      · simp only [execV, he]
    | struct hk hs =>
      have hst : ∃ fs, (W.E t).kind = .struct fs := by
        revert hk
        cases hkk : (W.E t).kind <;> simp [isStructK]
      simp only [execV]
      split
      · rfl
      · split
        · rfl
        · refine structV_run (fun name => ?_) (fun name => ?_) _ _ _ _
          · cases x with
            | allowList l => exact absurd hst hh
            | denyList l => exact absurd hst hh
            | _ => rfl
          · rcases has_run x o .noHTMLEscaping with rfl | h
            · exact absurd (.inr (.inl hst)) hh
            · simp only [fieldKey, h]
    | map hk hkm hki hvi =>
      rcases has_map G hk hv with rfl | ⟨kvs, rfl, h1, h2⟩
      · rcases has_run x o .nilMapEmpty with rfl | h
        · exact absurd ⟨rfl, _, _, hk⟩ hh
        · simp only [execV, h]
      · simp only [execV]
        rw [entries_run (by rintro rfl; exact hh (.inl ⟨_, rfl⟩))]
    | byteSlice hk he =>
      rcases has_slice G hk hv with rfl | ⟨vs, rfl, h1⟩
      · rfl
      · rcases esc_run x o with h | h
        · exact absurd (escOpt_touched h (.inr (.inl ⟨_, hk, he⟩))) hh
        · rcases has_run x o .rawByteSlice with rfl | h'
          · exact absurd ⟨by simp, _, hk, he⟩ hh
          · simp only [execV, h, h']
    | slice hk hi =>
      rcases has_slice G hk hv with rfl | ⟨vs, rfl, h1⟩
      · rcases has_run x o .nilSliceEmpty with rfl | h
        · exact absurd ⟨rfl, _, hk⟩ hh
        · simp only [execV, h]
      · simp only [execV, encodeArrayV, Bool.false_and]; rfl
    | @array _ _ n e j isba hk hb hi =>
      obtain ⟨vs, rfl, -, h1⟩ := has_array G hk hv
      cases isba with
      | false => simp only [execV, encodeArrayV, Bool.false_and]; rfl
      | true =>
        rcases esc_run x o with h | h
        · exact absurd (escOpt_touched h (.inr (.inr ⟨_, _, hk, hb rfl⟩))) hh
        · rcases has_run x o .byteArrayAsString with rfl | h'
          · exact absurd ⟨_, _, hk, hb rfl⟩ hh
          · simp only [execV, encodeArrayV, h, h']
    | _ => rfl
  · rfl

end Jettison.Proofs
