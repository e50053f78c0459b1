import Verif.Proofs.Size
import Verif.Props.WritesUnique
import Verif.Props.WritesEx

/-!
# C65: the text is linear in the size of the value

The length of what a call writes is bounded by six times the bytes of the strings in the value, and a constant
for each value in it, which depends on the longest name of a member, the longest result of a method and the
longest texts of floats and times only.
-/

namespace Jettison.Props
open Jettison Jettison.Model Jettison.Spec Jettison.Proofs

variable {W : World} {M : MethV} {o : EncOpts} {t : TId} {ca q : Bool} {v : Val} {b : Bytes} {N B F T : Nat}

theorem Limits.part {t' : TId} {v' : Val} (h : Limits W M o t v N B F T) (hw : Within W.E t v t' v') : Limits W M o t' v' N B F T where
  name _ _ m h' := h.name _ _ m (within_trans hw h')
  meth _ _ m rt x u p c b h' := h.meth _ _ m rt x u p c b (within_trans hw h')
  float _ _ _ b h' := h.float _ _ _ b (within_trans hw h')
  duration _ _ b h' := h.duration _ _ b (within_trans hw h')
  layout _ _ l h' := h.layout _ _ l (within_trans hw h')

theorem methText_le {rt : TId} {x : Val} {m : MethKind} (h : MethText M o rt x m b)
    (hB : ∀ path c b, M path m c rt x [] = .ok b → b.length ≤ B) : b.length ≤ 6 * B + 2 := by
  cases h with
  | ctx h => have := hB _ _ _ h; omega
  | app h => have := hB _ _ _ h; omega
  | json h _ hc => have := hB _ _ _ h; have := copiedAs_le hc; omega
  | text h => have := hB _ _ _ h; simp only [List.length_append, List.length_cons, List.length_nil]; omega

theorem timeText_le {x : GoTime} (h : TimeText W o x b) (hx : -9223372036854775808 ≤ x.unix ∧ x.unix < 9223372036854775808)
    (hT : ∀ l, o.layout = .other l → (W.appendFormat x l).length ≤ T) : b.length ≤ T + 37 := by
  cases h with
  | unix _ h => have := intLiteral_le h (k := 20) (by omega) (by omega); omega
  | rfc3339 _ _ h => have := timeWritten_le h; simp only [List.length_append, List.length_cons, List.length_nil]; omega
  | nano _ _ h => have := timeWritten_le h; simp only [List.length_append, List.length_cons, List.length_nil]; omega
  | layout _ h => have := hT _ h; simp only [List.length_append, List.length_cons, List.length_nil]; omega

theorem durationText_le {d : Int64} (h : DurationText W o d b)
    (hF : ∀ b, FloatText W.fmt .f64 (W.df.seconds d) b ∨ FloatText W.fmt .f64 (W.df.minutes d) b → b.length ≤ F) : b.length ≤ F + 33 := by
  have hd := int64_abs d
  cases h with
  | str _ _ h => have := clockText_le h hd; simp only [List.length_append, List.length_cons, List.length_nil]; omega
  | neg _ _ h => have := clockText_le h hd; simp only [List.length_append, List.length_cons, List.length_nil]; omega
  | ns _ h => have := intLiteral_le h (k := 20) (by omega) (by omega); omega
  | us _ h => have := intLiteral_le h (k := 20) (by omega) (by rw [Int.natAbs_tdiv]; exact Nat.lt_of_le_of_lt (Nat.div_le_self _ _) (by omega)); omega
  | ms _ h => have := intLiteral_le h (k := 20) (by omega) (by rw [Int.natAbs_tdiv]; exact Nat.lt_of_le_of_lt (Nat.div_le_self _ _) (by omega)); omega
  | sec _ h => have := hF _ (.inl h); omega
  | min _ h => have := hF _ (.inr h); omega

/-- The bound on the text of a value, with room for what stands around it. -/
def Fits (N B F T : Nat) (v : Val) (b : Bytes) : Prop := b.length + (6 * N + 10) ≤ weight 6 (6 * N + 6 * B + F + T + 60) v

theorem fits_small (h : b.length ≤ 6 * B + F + T + 50) : Fits N B F T v b := by
  have := weight_ge (c := 6) (k := 6 * N + 6 * B + F + T + 60) v
  unfold Fits
  omega

theorem array_length (bs : List Bytes) : (b! "[" ++ commas bs ++ b! "]").length ≤ (bs.map fun b => b.length + 1).sum + 2 := by
  have := commas_length bs
  simp only [List.length_append, List.length_cons, List.length_nil]
  omega

theorem object_length {ms ms' : List (Bytes × Bytes)} (h : ms'.Perm ms) : (objectOf ms').length ≤ (ms.map fun m => m.1.length + m.2.length + 2).sum + 2 := by
  have h1 := commas_length (ms'.map fun m => m.1 ++ b! ":" ++ m.2)
  have h2 : (ms'.map fun m => m.1.length + m.2.length + 2).sum = (ms.map fun m => m.1.length + m.2.length + 2).sum :=
    List.Perm.sum_nat (h.map _)
  rw [List.map_map] at h1
  have h3 : ((fun b : Bytes => b.length + 1) ∘ fun m : Bytes × Bytes => m.1 ++ b! ":" ++ m.2) = fun m => m.1.length + m.2.length + 2 := by
    funext m
    simp only [Function.comp_apply, List.length_append, List.length_cons, List.length_nil]
    omega
  rw [h3, h2] at h1
  simp only [objectOf, List.length_append, List.length_cons, List.length_nil]
  omega

/-- The claim for smaller values. -/
def FitsBelow (W : World) (M : MethV) (o : EncOpts) (N B F T n : Nat) : Prop :=
  ∀ t ca q v b, sizeOf v < n → HasType W.E t v → TimesFine W t v → Limits W M o t v N B F T → Writes W M o t ca q v b → Fits N B F T v b

theorem scalar_fits (hb : ByKind W.E t ca) (hk : isBasicK (W.E t).kind = true) (L : Limits W M o t v N B F T) (h : Writes W M o t ca false v b) :
    b.length + 2 + (6 * N + 10) ≤ weight 6 (6 * N + 6 * B + F + T + 60) v := by
  have hw := weight_ge (c := 6) (k := 6 * N + 6 * B + F + T + 60) v
  rcases w_scalar hb hk h with ⟨x, rfl, h1⟩ | ⟨x, rfl, h1⟩ | ⟨w, x, rfl, h1⟩ | ⟨s, c, rfl, h1, h2⟩
  · subst h1; cases x <;> simp only [Bool.false_eq_true, if_true, if_false, List.length_cons, List.length_nil] <;> omega
  · have := intLiteral_le h1 (k := 20) (by omega) (intOf_abs x); omega
  · have := L.float _ _ _ _ .refl h1; omega
  · subst h2
    have := spelledAs_le h1
    rw [weight_str]
    simp only [List.length_append, List.length_cons, List.length_nil]
    omega

theorem fits_step (hU : TablesOk W.U.isLetter W.U.isDigit) (G : GoTypes W.E W.ptrTo) {n : Nat} (ih : FitsBelow W M o N B F T n) (hn : sizeOf v = n)
    (ht : HasType W.E t v) (hf : TimesFine W t v) (L : Limits W M o t v N B F T) (h : Writes W M o t ca q v b) : Fits N B F T v b := by
  have part : ∀ {t' : TId} {v' : Val} {ca q : Bool} {b : Bytes}, Part W.E t v t' v' → sizeOf v' < sizeOf v →
      Writes W M o t' ca q v' b → Fits N B F T v' b := fun hp hs h =>
    ih _ _ _ _ _ (hn ▸ hs) (part_type G ht hp) (timesFine_part hf hp) (Limits.part L (.step .refl hp)) h
  have bytesFit : ∀ {vs : List Val} {x c : Bytes}, AsBytes vs x → c.length ≤ 6 * x.length + 6 →
      c.length + (6 * N + 10) ≤ (vs.map (weight 6 (6 * N + 6 * B + F + T + 60))).sum + (6 * N + 6 * B + F + T + 60) := by
    intro vs x c hx hc
    rw [AsBytes] at hx
    rw [hx, weight_bytes]
    have : 6 * x.length ≤ (6 * N + 6 * B + F + T + 60) * x.length := Nat.mul_le_mul_right _ (by omega)
    omega
  have elemsFit : ∀ {vs : List Val} {bs : List Bytes}, bs.length = vs.length →
      (∀ (i : Nat) x y, vs[i]? = some x → bs[i]? = some y → Fits N B F T x y) →
      (b! "[" ++ commas bs ++ b! "]").length + (6 * N + 10) ≤ (vs.map (weight 6 (6 * N + 6 * B + F + T + 60))).sum + (6 * N + 6 * B + F + T + 60) := by
    intro vs bs hl hfit
    have h1 := array_length bs
    have h2 := sum_le_of_zip (f := fun b : Bytes => b.length + 1) (g := weight 6 (6 * N + 6 * B + F + T + 60)) hl fun i x y hx hy => by
      have := hfit i x y hx hy
      unfold Fits at this
      omega
    omega
  cases hs : (W.E t).special with
  | some s =>
    cases s with
    | time =>
      obtain ⟨x, rfl, -, h1⟩ := w_time hs h
      exact fits_small (by have := timeText_le h1 (hf _ _ .refl).1 fun l => L.layout _ _ l .refl; omega)
    | duration =>
      obtain ⟨x, rfl, h1⟩ := w_duration hs h
      exact fits_small (by have := durationText_le h1 fun b => L.duration _ _ b .refl hs; omega)
    | number =>
      obtain ⟨x, rfl, h1⟩ := w_number hs h
      subst h1
      unfold Fits
      rw [weight_str]
      split
      · simp only [List.length_cons, List.length_nil]; omega
      · omega
    | rawMessage =>
      rcases w_raw hs h with ⟨rfl, rfl⟩ | ⟨vs, x, rfl, h1, h2⟩
      · exact fits_small (by simp only [List.length_cons, List.length_nil]; omega)
      · unfold Fits
        rw [weight_slice]
        exact bytesFit h1 (Nat.le_trans (copiedAs_le h2) (by omega))
    | syncMap =>
      obtain ⟨kvs, ms, ms', rfl, rfl, h1, h2, h3, h4, h5⟩ := w_smap hs h
      have small : ∀ {kv : Val × Val}, kv ∈ kvs → sizeOf kv.1 < sizeOf (Val.smap kvs) ∧ sizeOf kv.2 < sizeOf (Val.smap kvs) := by
        intro kv hkv
        have := List.sizeOf_lt_of_mem hkv
        have e : sizeOf kv = 1 + sizeOf kv.1 + sizeOf kv.2 := by cases kv; simp
        simp only [Val.smap.sizeOf_spec]
        omega
      have hsum := sum_le_of_zip (f := fun m : Bytes × Bytes => m.1.length + m.2.length + 2)
        (g := fun kv : Val × Val => weight 6 (6 * N + 6 * B + F + T + 60) kv.1 + weight 6 (6 * N + 6 * B + F + T + 60) kv.2) h1 fun i kv m ha hb => by
        have hkv := List.mem_of_getElem? ha
        have hkey : m.1.length + (6 * N + 10) ≤ weight 6 (6 * N + 6 * B + F + T + 60) kv.1 := by
          have hk := h2 i kv m ha hb
          have hsm := (small hkv).1
          generalize hkk : kv.1 = key at hk hsm
          generalize m.1 = text at hk
          have hp : ∀ {d x c}, key = .iface d x → Writes W M o d (isPtrK (W.E d).kind) false x c → Fits N B F T x c := fun e hw =>
            part (.skey hkv (hkk.trans e)) (by rw [e] at hsm; simp only [Val.iface.sizeOf_spec] at hsm; omega) hw
          cases hk with
          | str _ hsp =>
            have := spelledAs_le hsp
            rw [weight_iface, weight_str]
            simp only [List.length_append, List.length_cons, List.length_nil]
            omega
          | text _ _ hw => have := hp rfl hw; unfold Fits at this; rw [weight_iface]; omega
          | quoted _ _ hw =>
            have := hp rfl hw
            unfold Fits at this
            rw [weight_iface]
            simp only [List.length_append, List.length_cons, List.length_nil]
            omega
        have hval : m.2.length + (6 * N + 10) ≤ weight 6 (6 * N + 6 * B + F + T + 60) kv.2 := by
          have hx : InIface W.E kv.2 := by
            cases ht with
            | smap _ _ hx => exact hx kv hkv
            | iface _ hx => cases hx
          rcases inIface_cases hx with e | ⟨d, x, e, -⟩
          · exact absurd e (h4 kv hkv)
          · have := part (.selem hkv e) (by have := (small hkv).2; rw [e] at this; simp only [Val.iface.sizeOf_spec] at this; omega) (h3 i kv m d x ha hb e)
            unfold Fits at this
            rw [e, weight_iface]
            omega
        omega
      have := object_length h5.1
      unfold Fits
      rw [weight_smap]
      omega
  | none =>
    rcases picks_or_byKind (ca := ca) hs with hb | ⟨m, hm⟩
    · by_cases hk : isBasicK (W.E t).kind = true
      · cases q with
        | false => have := scalar_fits hb hk L h; unfold Fits; omega
        | true =>
          rcases w_quoted hb hk h with ⟨h1, c, h2, rfl⟩ | ⟨h1, s, c, rfl, h2, rfl⟩
          · have := scalar_fits hb hk L h2
            unfold Fits
            simp only [List.length_append, List.length_cons, List.length_nil]
            omega
          · have := spelledAs_le h2
            unfold Fits
            rw [weight_str]
            simp only [List.length_append, List.length_cons, List.length_nil]
            omega
      · cases hkk : (W.E t).kind with
        | bool | int | float | string => rw [hkk] at hk; exact absurd rfl hk
        | other => exact absurd hkk (w_kind hb h)
        | ptr e =>
          rcases w_ptr hb hkk h with ⟨rfl, rfl⟩ | ⟨x, rfl, h1⟩
          · exact fits_small (by simp only [List.length_cons, List.length_nil]; omega)
          · have := part (.ptr hkk) (by simp) h1
            unfold Fits at this ⊢
            rw [weight_ptr]
            omega
        | iface k =>
          have := w_tag hb hk (by simp [hkk]) h
          subst this
          rcases w_iface hb hkk h with ⟨rfl, rfl⟩ | ⟨d, x, rfl, h1⟩
          · exact fits_small (by simp only [List.length_cons, List.length_nil]; omega)
          · have := part .iface (by simp only [Val.iface.sizeOf_spec]; omega) h1
            unfold Fits at this ⊢
            rw [weight_iface]
            omega
        | slice e =>
          have := w_tag hb hk (by simp [hkk]) h
          subst this
          by_cases he : ByteElem W.E e
          · rcases w_bytes hb hkk he h with ⟨rfl, rfl⟩ | ⟨vs, x, c, rfl, rfl, h1, h2⟩
            · exact fits_small (by simp only [List.length_cons, List.length_nil]; omega)
            · unfold Fits
              rw [weight_slice]
              refine bytesFit h1 ?_
              simp only [List.length_append, List.length_cons, List.length_nil]
              rcases h2 with ⟨-, h2⟩ | ⟨-, h2⟩
              · rw [base64_length h2]; omega
              · have := spelledAs_le h2; omega
          · rcases w_slice hb hkk he h with ⟨rfl, rfl⟩ | ⟨vs, bs, rfl, rfl, h1, h2⟩
            · refine fits_small ?_
              split <;> simp only [List.length_cons, List.length_nil] <;> omega
            · unfold Fits
              rw [weight_slice]
              refine elemsFit h1 fun i x y hx hy => part (.slice hkk (List.mem_of_getElem? hx)) ?_ (h2 i x y hx hy)
              have := List.sizeOf_lt_of_mem (List.mem_of_getElem? hx)
              simp only [Val.slice.sizeOf_spec]
              omega
        | array k e =>
          have := w_tag hb hk (by simp [hkk]) h
          subst this
          rcases w_array hb hkk h with ⟨vs, x, c, rfl, rfl, g1, g2, g3, g4⟩ | ⟨vs, bs, rfl, rfl, g1, g2, g3⟩
          · unfold Fits
            rw [weight_array]
            refine bytesFit g3 ?_
            have := spelledAs_le g4
            simp only [List.length_append, List.length_cons, List.length_nil]
            omega
          · unfold Fits
            rw [weight_array]
            refine elemsFit g2 fun i x y hx hy => part (.array hkk (List.mem_of_getElem? hx)) ?_ (g3 i x y hx hy)
            have := List.sizeOf_lt_of_mem (List.mem_of_getElem? hx)
            simp only [Val.array.sizeOf_spec]
            omega
        | map k e =>
          have := w_tag hb hk (by simp [hkk]) h
          subst this
          rcases (w_map hb hkk h).2 with ⟨rfl, rfl⟩ | ⟨kvs, ms, ms', rfl, rfl, h1, h2, h3, h5⟩
          · refine fits_small ?_
            split <;> simp only [List.length_cons, List.length_nil] <;> omega
          · have small : ∀ {kv : Val × Val}, kv ∈ kvs → sizeOf kv.1 < sizeOf (Val.map kvs) ∧ sizeOf kv.2 < sizeOf (Val.map kvs) := by
              intro kv hkv
              have := List.sizeOf_lt_of_mem hkv
              have e : sizeOf kv = 1 + sizeOf kv.1 + sizeOf kv.2 := by cases kv; simp
              simp only [Val.map.sizeOf_spec]
              omega
            have hsum := sum_le_of_zip (f := fun m : Bytes × Bytes => m.1.length + m.2.length + 2)
              (g := fun kv : Val × Val => weight 6 (6 * N + 6 * B + F + T + 60) kv.1 + weight 6 (6 * N + 6 * B + F + T + 60) kv.2) h1 fun i kv m ha hb => by
              have hkv := List.mem_of_getElem? ha
              have hkey : m.1.length + (6 * N + 8) ≤ weight 6 (6 * N + 6 * B + F + T + 60) kv.1 := by
                have hk := h2 i kv m ha hb
                have hp : ∀ {c}, Writes W M o k false false kv.1 c → Fits N B F T kv.1 c := fun hw => part (.key hkk hkv) (small hkv).1 hw
                have hge := weight_ge (c := 6) (k := 6 * N + 6 * B + F + T + 60) kv.1
                generalize kv.1 = key at hk hp hge
                generalize m.1 = text at hk
                cases hk with
                | str _ hsp =>
                  have := spelledAs_le hsp
                  rw [weight_str]
                  simp only [List.length_append, List.length_cons, List.length_nil]
                  omega
                | nilText => simp only [List.length_cons, List.length_nil]; omega
                | text _ _ _ hw => have := hp hw; unfold Fits at this; omega
                | quoted _ _ hw =>
                  have := hp hw
                  unfold Fits at this
                  simp only [List.length_append, List.length_cons, List.length_nil]
                  omega
              have hval := part (.elem hkk hkv) (small hkv).2 (h3 i kv m ha hb)
              unfold Fits at hval
              omega
            have := object_length h5.1
            unfold Fits
            rw [weight_map]
            omega
        | struct fs =>
          have := w_tag hb hk (by simp [hkk]) h
          subst this
          have hst : IsStruct W.E t := ⟨fs, hkk⟩
          obtain ⟨l, tried, kept, q', x, c, key, lead, a1, a2, a3, a4, a5, a6, a7, a8, a9, a10, rfl⟩ := w_struct hb hst h
          have hfit : ∀ m ∈ tried, Fits N B F T (x m) (c m) := by
            intro m hm
            obtain ⟨_, _, _, _, _, hpath, hprom, -⟩ := (a1.2 m).mp (a2.subset hm)
            have hw := fieldAt_type G (a4 m hm) hst ht (promoted_type hst hprom)
            exact ih _ _ _ _ _ (hn ▸ Jettison.Props.fieldAt_size (a4 m hm)) hw.1 (fun t'' y hw' => hf t'' y (within_trans hw.2 hw')) (Limits.part L hw.2) (a6 m hm)
          have hlen : ∀ m ∈ kept, (b! "\"" ++ key m ++ b! "\":" ++ c m).length + 1 ≤ weight 6 (6 * N + 6 * B + F + T + 60) (x m) := by
            intro m hm
            have h1 := hfit m (a7.subset hm)
            have h2 := namedAs_le (a9 m hm)
            have h3 := L.name _ _ m .refl ((a1.2 m).mp (a2.subset (a7.subset hm)))
            unfold Fits at h1
            simp only [List.length_append, List.length_cons, List.length_nil]
            omega
          have hap : Apart (tried.map fun m => (m.path, x m)) := by
            refine List.pairwise_map.mpr (List.Pairwise.imp_of_mem ?_ (a1.1.sublist a2))
            intro a b ha hb hlt
            have hne : a.path ≠ b.path := fun e => pathLt_asymm hlt (by rw [e] at hlt ⊢; exact hlt)
            exact ⟨fun hp => hne (members_apart hU ((a1.2 a).mp (a2.subset ha)) ((a1.2 b).mp (a2.subset hb)) hp),
              fun hp => hne (members_apart hU ((a1.2 b).mp (a2.subset hb)) ((a1.2 a).mp (a2.subset ha)) hp).symm⟩
          have hsum := fields_weight (c := 6) (k := 6 * N + 6 * B + F + T + 60) v (tried.map fun m => (m.path, x m)) (by
            intro p hp
            obtain ⟨m, hm, rfl⟩ := List.mem_map.mp hp
            exact a4 m hm) hap
          rw [List.map_map] at hsum
          have hs1 : (kept.map fun m => (b! "\"" ++ key m ++ b! "\":" ++ c m).length + 1).sum ≤
              (tried.map fun m => weight 6 (6 * N + 6 * B + F + T + 60) (x m)).sum :=
            Nat.le_trans (sum_map_le hlen) (sum_sublist_le a7)
          have hs2 := commas_length (kept.map fun m => b! "\"" ++ key m ++ b! "\":" ++ c m)
          rw [List.map_map] at hs2
          have hlead : lead.length ≤ 1 := by cases a10 <;> simp
          have hs3 : (commas (kept.map fun m => b! "\"" ++ key m ++ b! "\":" ++ c m)).length ≤ (tried.map fun m => weight 6 (6 * N + 6 * B + F + T + 60) (x m)).sum :=
            Nat.le_trans hs2 hs1
          have hs4 : (tried.map fun m => weight 6 (6 * N + 6 * B + F + T + 60) (x m)).sum + (6 * N + 6 * B + F + T + 60) ≤
            weight 6 (6 * N + 6 * B + F + T + 60) v := hsum
          unfold Fits
          simp only [List.length_append (bs := b! "}"), List.length_append (as := b! "{" ++ lead), List.length_append (as := b! "{"), List.length_cons, List.length_nil]
          omega
    · rcases w_meth hs hm h with ⟨rfl, rfl, g1, g2⟩ | ⟨rt, x, u, g1, g2⟩
      · exact fits_small (by simp only [List.length_cons, List.length_nil]; omega)
      · have := methText_le g2 fun path c b => L.meth _ _ _ _ _ _ path c b .refl g1
        exact fits_small (by omega)

/-- C65: the text of a value, at most six bytes for each byte of a string, and a constant for each value. -/
theorem C65_text (hU : TablesOk W.U.isLetter W.U.isDigit) (G : GoTypes W.E W.ptrTo) (ht : HasType W.E t v) (hf : TimesFine W t v)
    (L : Limits W M o t v N B F T) (h : Writes W M o t ca q v b) : b.length ≤ 6 * v.chars + (6 * N + 6 * B + F + T + 60) * v.nodes := by
  have key : ∀ n, FitsBelow W M o N B F T n := by
    intro n
    induction n with
    | zero => intro _ _ _ _ _ h; exact absurd h (Nat.not_lt_zero _)
    | succ n ihn =>
      intro t ca q v b hl ht hf L h
      exact fits_step hU G (n := sizeOf v) (fun _ _ _ _ _ hs => ihn _ _ _ _ _ (by omega)) rfl ht hf L h
  have := key _ _ _ _ _ _ (Nat.lt_succ_self _) ht hf L h
  unfold Fits weight at this
  omega

/-- C65: what a call writes is no longer than that, whatever the options. -/
theorem C65_call {H : Heap} (D : WriteReady W H M) {w : Addr} (hx : ReprE W.E H.mem (some (t, w)) (.iface t v)) (hf : TimesFine W t v)
    {opts : List (Option Opt)} (ho : prepare opts = .ok o) (L : Limits W M o t v N B F T) {n : Nat} :
    (∀ b, marshalOpts W H n (some (t, w)) opts = .ret (some b) none → b.length ≤ 6 * v.chars + (6 * N + 6 * B + F + T + 60) * v.nodes) ∧
    (∀ dst out, appendOpts W H n dst (some (t, w)) opts = .ret (some out) none →
      out.length ≤ dst.length + 6 * v.chars + (6 * N + 6 * B + F + T + 60) * v.nodes) := by
  have ht : HasType W.E t v := by
    cases repr_inIface hx with
    | val h => exact h
  have hc := C56_bytes D hx hf ho (n := n)
  refine ⟨fun b h => C65_text D.ready.tab D.ready.types ht hf L (hc.1 b h), fun dst out h => ?_⟩
  obtain ⟨b, rfl, hb⟩ := hc.2 dst out h
  have := C65_text D.ready.tab D.ready.types ht hf L hb
  simp only [List.length_append]
  omega

/-- C65: a string is written with at least one byte for each of its bytes and at most six, and a pair of quotes. -/
theorem C65_string {H : Heap} (D : WriteReady W H M) {w : Addr} {s : Bytes} (hx : ReprE W.E H.mem (some (t, w)) (.iface t (.str s)))
    (hb : ByKind W.E t false) (hk : (W.E t).kind = .string) {opts : List (Option Opt)} (ho : prepare opts = .ok o) {n : Nat}
    (h : marshalOpts W H n (some (t, w)) opts = .ret (some b) none) : s.length + 2 ≤ b.length ∧ b.length ≤ 6 * s.length + 2 := by
  have hf : TimesFine W t (.str s) := by
    intro t' x hw
    have : ∀ {t' v'}, Within W.E t (.str s) t' v' → v' = .str s := by
      intro t' v' hw
      induction hw with
      | refl => rfl
      | step _ hp ih => subst ih; cases hp
    cases this hw
  have hw := (C56_bytes D hx hf ho).1 b h
  have e : isPtrK (W.E t).kind = false := by rw [hk]; rfl
  rw [e] at hw
  rcases w_scalar hb (by rw [hk]; rfl) hw with ⟨x, e, -⟩ | ⟨x, e, -⟩ | ⟨_, x, e, -⟩ | ⟨s', c, e, h1, rfl⟩ <;> cases e
  have h2 := spelledAs_le h1
  have h3 := spelledAs_ge h1
  simp only [List.length_append, List.length_cons, List.length_nil]
  omega

theorem spelling_zeros (n : Nat) {r : Bytes} (h : Spelling true true (List.replicate n 0) r) : r.length = 6 * n := by
  have : Spelling true true (List.replicate n 0) (List.replicate n (uForm 0)).flatten := by
    clear h
    induction n with
    | zero => exact .nil
    | succ n ih => rw [List.replicate_succ, List.replicate_succ, List.flatten_cons]; exact .control (by decide) (by decide) (by decide) (by decide) ih
  rw [spelling_unique h this]
  clear h this
  induction n with
  | zero => rfl
  | succ n ih => rw [List.replicate_succ, List.flatten_cons, List.length_append, uForm_length, ih]; omega

/-- C65: six bytes for one are needed: of a string of `n` NUL characters. -/
theorem C65_tight {H : Heap} (D : WriteReady W H M) {w : Addr} {k : Nat} (hx : ReprE W.E H.mem (some (t, w)) (.iface t (.str (List.replicate k 0))))
    (hb : ByKind W.E t false) (hk : (W.E t).kind = .string) {n : Nat}
    (h : marshal W H n (some (t, w)) = .ret (some b) none) : b.length = 6 * (Val.str (List.replicate k 0)).chars + 2 := by
  have hf : TimesFine W t (.str (List.replicate k 0)) := by
    intro t' x hw
    have : ∀ {t' v'}, Within W.E t (.str (List.replicate k 0)) t' v' → v' = .str (List.replicate k 0) := by
      intro t' v' hw
      induction hw with
      | refl => rfl
      | step _ hp ih => subst ih; cases hp
    cases this hw
  have hw := (C56_bytes (opts := []) D hx hf rfl).1 b h
  have e : isPtrK (W.E t).kind = false := by rw [hk]; rfl
  rw [e] at hw
  rcases w_scalar hb (by rw [hk]; rfl) hw with ⟨x, e, -⟩ | ⟨x, e, -⟩ | ⟨_, x, e, -⟩ | ⟨s', c, e, h1, rfl⟩ <;> cases e
  cases h1 with
  | raw h1 => exact absurd h1 (by decide +kernel)
  | escaped _ h1 =>
    have h2 := spelling_zeros k h1
    simp only [Val.chars, List.length_append, List.length_cons, List.length_nil, List.length_replicate, h2]
    omega

/-- C65: `n` bytes are written as base64 with exactly four characters for each three begun, and a pair of quotes. -/
theorem C65_base64 {H : Heap} (D : WriteReady W H M) {w : Addr} {e : TId} {x : Bytes}
    (hx : ReprE W.E H.mem (some (t, w)) (.iface t (.slice (x.map fun c => .int (.uint8 c))))) (hf : TimesFine W t (.slice (x.map fun c => .int (.uint8 c))))
    (hb : ByKind W.E t false) (hk : (W.E t).kind = .slice e) (he : ByteElem W.E e) {opts : List (Option Opt)} (ho : prepare opts = .ok o)
    (hr : bmHas o.flags .rawByteSlice = false) {n : Nat} (h : marshalOpts W H n (some (t, w)) opts = .ret (some b) none) :
    b.length = 4 * ((x.length + 2) / 3) + 2 := by
  have hw := (C56_bytes D hx hf ho).1 b h
  have e' : isPtrK (W.E t).kind = false := by rw [hk]; rfl
  rw [e'] at hw
  rcases w_bytes hb hk he hw with ⟨e, -⟩ | ⟨vs, y, c, e, rfl, h1, h2⟩ <;> cases e
  cases asBytes_unique h1 rfl
  rcases h2 with ⟨-, h2⟩ | ⟨h2, -⟩
  · have := base64_length h2
    simp only [List.length_append, List.length_cons, List.length_nil]
    omega
  · rw [hr] at h2; cases h2

/-! ## Examples -/

/-- A test for the names of members. -/
theorem univ_short {defs : List TypeDef} {N : Nat} {letter digit : Nat → Bool} (h : (defs.all fun d => (fieldsOfK d.kind).all fun sf =>
    decide (sf.name.length ≤ N ∧ sf.tag.length ≤ N)) = true) {t : TId} {m : MField} (hm : ChosenField letter digit (univE defs) t m) : m.name.length ≤ N := by
  obtain ⟨_, u, i, _, tagged, -, hp, -⟩ := hm
  obtain ⟨fs, hf, hi⟩ := hp.decl
  have hsf : m.decl.name.length ≤ N ∧ m.decl.tag.length ≤ N := by
    simp only [HasFields, univE] at hf
    split at hf
    · simp at hf
    · cases hg : defs[u / 2]? with
      | none => rw [List.getD_eq_getElem?_getD, hg] at hf; simp at hf
      | some d =>
        rw [List.getD_eq_getElem?_getD, hg] at hf
        simp only [List.all_eq_true, decide_eq_true_eq] at h
        exact h d (List.mem_of_getElem? hg) m.decl (by simp only [Option.getD_some] at hf; simp [hf, fieldsOfK, List.mem_of_getElem? hi])
  rcases hp.member.2.2 with ⟨-, opts, ⟨-, -, h1⟩, -⟩ | ⟨-, -, h1⟩
  · rcases h1 with ⟨-, h1⟩ | ⟨-, h1⟩
    · rw [← h1]; exact hsf.2
    · have := hsf.2
      rw [h1] at this
      simp only [List.length_append] at this
      omega
  · rw [h1]; exact hsf.1

theorem big_limits : Limits shopW (univM shopMeth) defaultEncOpts 32 bigV 20 6 7 0 where
  name _ _ _ _ h := univ_short (defs := shopDefs) (by decide +kernel) h
  meth t' v' m rt x u path c b hw hr hM := by
    have hp := allParts_within (E := shopW.E) (P := fun _ v => decide (((strOf v).getD (b! "t")).length ≤ 6) && decide (((strOf (.ptr v)).getD (b! "t")).length ≤ 6) &&
      match v with | .iface _ x => decide (((strOf x).getD (b! "t")).length ≤ 6) | _ => true) (n := 6) (by decide +kernel) hw
    simp only [Bool.and_eq_true, decide_eq_true_eq] at hp
    have hx : ((strOf x).getD (b! "t")).length ≤ 6 := by
      cases hr with
      | own => exact hp.1.1
      | dyn => simpa using hp.2
      | addr => exact hp.1.2
    cases m with
    | json => 
      simp only [univM, shopMeth] at hM
      split at hM
      · cases hM
      · split at hM
        · cases hM
        · simp only [MethRes.ok.injEq] at hM
          subst hM
          split <;> decide
    | text => simp only [univM, shopMeth, MethRes.ok.injEq] at hM; subst hM; exact hx
    | append => simp only [univM, shopMeth, MethRes.ok.injEq] at hM; subst hM; decide
    | appendCtx => simp only [univM, shopMeth, MethRes.ok.injEq] at hM; subst hM; decide
  float _ w bits _ _ h := floatText_le h fun _ _ e _ => by cases e <;> exact Nat.le_of_ble_eq_true rfl
  duration _ d _ _ _ h := by rcases h with h | h <;> exact floatText_le h fun _ _ e _ => by cases e <;> exact Nat.le_of_ble_eq_true rfl
  layout _ _ _ _ h := by cases h

/-- The hypotheses of `C65_call` and so of `C65_text`. -/
example : bigV.chars = 15 ∧ bigV.nodes = 35 ∧ (b!
    "{\"1\":{\"name\":\"t\\\"é\",\"p\":\"12\"},\"2\":[[1,2]],\"3\":{\"\\u003ck\\u003e\":4},\"4\":\"2000-02-29T01:00:00.0000005+01:00\",\"5\":[1],\"6\":{\"\\u003ck\\u003e\":4}}").length ≤
    6 * bigV.chars + 223 * bigV.nodes :=
  ⟨by decide +kernel, by decide +kernel, (C65_call (opts := []) (shop_writes _) big_holds (timesB_fine (n := 6) (by decide +kernel)) rfl big_limits (n := 9)).1 _ big_text⟩

/-- The hypotheses of `C65_tight` and `C65_string`: three NUL characters. -/
example : (b! "\"\\u0000\\u0000\\u0000\"").length = 6 * 3 + 2 :=
  C65_tight (shop_writes [(100, .str [0, 0, 0])]) (w := 100) (t := 2) (k := 3) (shop_holds 5 (by decide +kernel)) (byKind_of (by decide +kernel)) rfl (n := 5)
    (by decide +kernel)

/-- The hypotheses of `C65_base64`: four bytes. -/
example : (b! "\"AQID/w==\"").length = 4 * ((4 + 2) / 3) + 2 :=
  C65_base64 (opts := []) (shop_writes [(100, .slice 120 4), (120, .int (.uint8 1)), (121, .int (.uint8 2)), (122, .int (.uint8 3)), (123, .int (.uint8 255))])
    (w := 100) (t := 20) (e := 16) (x := [1, 2, 3, 255]) (shop_holds 5 (by decide +kernel)) (timesB_fine (n := 6) (by decide +kernel)) (byKind_of (by decide +kernel)) rfl
    ⟨rfl, rfl, rfl⟩ rfl (by decide +kernel) (n := 5) (by decide +kernel)

end Jettison.Props
