import Verif.Props.ConcernsFirst
import Verif.Props.TrimEx

/-! # C75: examples -/

namespace Jettison.Props
open Jettison Jettison.Model Jettison.Spec Jettison.Proofs

variable {W : World} {o o' : EncOpts} {t : TId} {ca : Bool} {v : Val}

/-- No duration, number, array, nil map or slice, or slice of bytes. -/
def aloofB (E : Env) (t : TId) (v : Val) : Bool :=
  match (E t).special with
  | some .duration | some .number => false
  | some _ => true
  | none =>
    match (E t).kind, v with
    | .array _ _, _ | .slice _, .nil | .map _ _, .nil => false
    | .slice e, _ => !((E e).kind == .int .uint8)
    | _, _ => true

theorem aloof_unconcerned (h1 : ∀ f : Flag, f ≠ .rawByteSlice → f ≠ .byteArrayAsString → f ≠ .nilMapEmpty → f ≠ .nilSliceEmpty → f ≠ .noNumberValidation → SameFlag f o o')
    (h2 : o.ctx = o'.ctx) (h3 : o.layout = o'.layout) (h4 : o.allowList = o'.allowList) (h5 : o.denyList = o'.denyList) (h6 : bmHas o.flags .unsortedMap = false)
    (h : aloofB W.E t v = true) : ¬ Concerned W o o' t ca v := by
  have hT : ∀ s, TextSame o o' s := fun s => .inr ⟨h1 _ (by decide) (by decide) (by decide) (by decide) (by decide), fun _ =>
    ⟨.inl (h1 _ (by decide) (by decide) (by decide) (by decide) (by decide)), .inl (h1 _ (by decide) (by decide) (by decide) (by decide) (by decide))⟩⟩
  have hC : CopySame o o' := ⟨h1 _ (by decide) (by decide) (by decide) (by decide) (by decide), fun _ => h1 _ (by decide) (by decide) (by decide) (by decide) (by decide)⟩
  have hO : ∀ n, OrderSame o o' n := fun n => .inr ⟨h1 _ (by decide) (by decide) (by decide) (by decide) (by decide), .inr h6⟩
  have hN : ∀ s, NameSame o o' s := fun _ => .inl (h1 _ (by decide) (by decide) (by decide) (by decide) (by decide))
  intro hc
  unfold aloofB at h
  cases hc with
  | time _ g => exact g ⟨h1 _ (by decide) (by decide) (by decide) (by decide) (by decide), fun _ => h3⟩
  | duration g _ => rw [g] at h; cases h
  | number g => rw [g] at h; cases h
  | raw _ g => exact g hC
  | skey _ _ _ _ g => exact g (hT _)
  | sorder _ g => exact g (hO _)
  | ctx _ _ _ g => exact g h2
  | json _ _ _ g => exact g hC
  | str _ _ g => exact g (hT _)
  | bytes g1 g2 g3 _ => rw [g1.1, g2] at h; simp [g3.1] at h
  | rawBytes _ _ _ _ _ g => exact g (hT _)
  | nilSlice g1 g2 => rw [g1.1, g2] at h; cases h
  | array g1 g2 => rw [g1.1, g2] at h; cases h
  | byteArray _ _ _ _ _ g => exact g (hT _)
  | nilMap g1 g2 => rw [g1.1, g2] at h; cases h
  | key _ _ _ _ _ g => exact g (hT _)
  | order _ _ g => exact g (hO _)
  | lists _ _ _ g => exact g (by rw [h4, h5])
  | name _ _ _ _ g => exact g (hN _)

def sideOpts : List (Option Opt) :=
  [some (.flag .rawByteSlice), some (.flag .byteArrayAsString), some (.flag .nilMapEmpty), some (.flag .nilSliceEmpty), some (.flag .noNumberValidation), some (.durationFormat 1)]

def sideEnc : EncOpts := match prepare sideOpts with | .ok o => o | .error _ => defaultEncOpts

theorem side_opts : prepare sideOpts = .ok sideEnc := rfl

theorem side_flags : ∀ f : Flag, f ≠ .rawByteSlice → f ≠ .byteArrayAsString → f ≠ .nilMapEmpty → f ≠ .nilSliceEmpty → f ≠ .noNumberValidation →
    SameFlag f defaultEncOpts sideEnc := by
  intro f; cases f <;> (intros; first | contradiction | (show _ = _; decide +kernel))

theorem side_unconcerned {n : Nat} (ht : HasType shopW.E t v) (h : allParts shopW.E (aloofB shopW.E) n t v = true) :
    Unconcerned shopW defaultEncOpts sideEnc t ca v := fun _ _ _ he =>
  aloof_unconcerned side_flags rfl rfl rfl rfl (by decide +kernel) (allParts_within (n := n) (P := aloofB shopW.E) h (encodes_within (shop_ready []).types he ht))

theorem ring_has : HasType shopW.E 129 ringV := by
  cases repr_inIface ringV_holds with
  | val h => exact h

theorem big_has : HasType shopW.E 32 bigV := by
  cases repr_inIface big_holds with
  | val h => exact h

/-- The hypotheses of `C75_same`. -/
example (b : Bytes) : marshalOpts (ringB.world shopW) ringB.heap 200 (some (129, 500)) [] = .ret (some b) none ↔
    marshalOpts (ringB.world shopW) ringB.heap 200 (some (129, 500)) sideOpts = .ret (some b) none :=
  C75_same (opts := []) ringB_finite (shop_faults ringCells) (shop_writes ringCells) shop_pathFree (w := 500) rfl ringV_holds
    (timesB_fine (n := 6) (by decide +kernel)) ring_keys.told rfl side_opts (side_unconcerned (n := 6) ring_has (by decide +kernel)) b

/-- The hypotheses of `C75_result`. -/
example : marshalOpts (ringB.world shopW) ringB.heap 200 (some (129, 500)) [] = marshalOpts (ringB.world shopW) ringB.heap 200 (some (129, 500)) sideOpts :=
  C75_result (opts := []) ringB_finite (shop_faults ringCells) (shop_writes ringCells) shop_pathFree (w := 500) rfl ringV_holds
    (timesB_fine (n := 6) (by decide +kernel)) ring_keys.told
    (oneEntry_small (shop_ready ringCells).types ring_has fun t' v' h kvs hk => by
      have := allParts_within (E := shopW.E) (P := fun _ v => match v with | .map kvs => kvs.length ≤ 1 | .smap kvs => kvs.length ≤ 1 | _ => true) (n := 6)
        (by decide +kernel) h
      rcases hk with rfl | rfl <;> simpa using this) rfl side_opts (side_unconcerned (n := 6) ring_has (by decide +kernel))

/-- The hypotheses of `C75_calls` and `C75_text`: maps, a time, a method, raw JSON and a `sync.Map`. -/
example (b : Bytes) (h : marshalOpts shopW (shopH bigCells) 9 (some (32, 100)) sideOpts = .ret (some b) none) :
    b! "{\"1\":{\"name\":\"t\\\"é\",\"p\":\"12\"},\"2\":[[1,2]],\"3\":{\"\\u003ck\\u003e\":4},\"4\":\"2000-02-29T01:00:00.0000005+01:00\",\"5\":[1],\"6\":{\"\\u003ck\\u003e\":4}}" = b :=
  (C75_calls (opts := []) (opts' := sideOpts) (n := 9) (n' := 9) (shop_writes bigCells) shop_pathFree big_holds
    (timesB_fine (n := 6) (by decide +kernel)) (keysDiffer_plain big_plain).told rfl side_opts
    (side_unconcerned (n := 6) big_has (by decide +kernel))).1 _ _ big_text h

example : marshalOpts shopW (shopH bigCells) 9 (some (32, 100)) sideOpts = .ret (some (b!
    "{\"1\":{\"name\":\"t\\\"é\",\"p\":\"12\"},\"2\":[[1,2]],\"3\":{\"\\u003ck\\u003e\":4},\"4\":\"2000-02-29T01:00:00.0000005+01:00\",\"5\":[1],\"6\":{\"\\u003ck\\u003e\":4}}")) none := by
  decide +kernel

/-- The hypotheses of `C75_error`. -/
example : ∃ t' ca' v', Encodes shopW defaultEncOpts 32 false blameV t' ca' v' ∧ Encodes shopW sideEnc 32 false blameV t' ca' v' ∧
    Fault shopW (univM shopMeth) defaultEncOpts t' ca' v' (.marshaler 22 .json (.user 3)) ∧
    Fault shopW (univM shopMeth) sideEnc t' ca' v' (.marshaler 22 .json (.user 3)) :=
  C75_error (o := defaultEncOpts) (opts := sideOpts) (shop_faults blameCells) (w := 100) (shop_holds 8 (by decide +kernel)) side_opts
    (side_unconcerned (n := 6) (by
      cases repr_inIface (shop_holds (cells := blameCells) (x := some (32, 100)) (v := .iface 32 blameV) 8 (by decide +kernel)) with
      | val h => exact h) (by decide +kernel)) (n := 9) (r := none) (by decide +kernel)

/-- An option that is about a part changes the text: UnixTime, and there is a time. -/
example : ¬ Unconcerned shopW defaultEncOpts { defaultEncOpts with flags := 1 } 32 false bigV := by
  intro h
  refine h 26 false (.time { unix := 951782400, nsec := 500, offset := 3600 }) (.step (t' := 10) (.elem (k := 0) (e := 10) (byKind_of (by decide +kernel)) rfl
    (.inr (.inl ⟨_, rfl⟩)) (kv := (.int (.int 4), .iface 26 (.time { unix := 951782400, nsec := 500, offset := 3600 }))) (by simp)) (.step (.iface (byKind_of (by decide +kernel)) rfl) .refl))
    (.time rfl fun hs => ?_)
  have := hs.1
  revert this
  unfold SameFlag
  decide +kernel

end Jettison.Props
