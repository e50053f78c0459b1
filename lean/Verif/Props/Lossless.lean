import Verif.Proofs.Lossless
import Verif.Props.DocumentEx
import Verif.Props.Terminate
import Verif.Proofs.Judged

/-!
# Data that can be recovered from its text (C55)

Two values of a type whose texts are equal are alike (`Alike`, Spec/Lossless), wherever they are
in memory and in whatever order their maps are iterated.
-/

namespace Jettison.Props
open Jettison Jettison.Spec Jettison.Model Jettison.Proofs

variable {W : World} {H H' : Heap} {M M' : MethV} {o : EncOpts} {t : TId} {v v' : Val}

theorem hasType_smap (h : HasType W.E t (.smap kvs)) : (W.E t).special = some .syncMap := by
  cases h with
  | smap h => exact h
  | iface _ h => cases h

theorem carried_fine (hv : HasType W.E t v) (C : Carried W o t v)
    (hk : ∀ k e kvs kv, (W.E t).kind = .map k e → v = .map kvs → kv ∈ kvs → Carried W o k kv.1) : Fine W M o t v := by
  have hsp : (W.E t).special ≠ some .number ∧ (W.E t).special ≠ some .rawMessage ∧ (W.E t).special ≠ some .syncMap := by
    rcases C.special with h | h | h <;> (rw [h]; exact ⟨nofun, nofun, nofun⟩)
  constructor
  · intro hs ca m rt x u path c b hp
    exact (picks_byKind hp (carried_byKind C hs ca)).elim
  · exact fun x h => (C.zone x h).1
  · exact fun s h => absurd h hsp.1
  · exact fun vs b h => absurd h hsp.2.1
  · exact fun e _ h _ _ => C.slice e h
  · intro k e kvs kv h1 h2 h3
    have Ck := hk k e kvs kv h1 h2 h3
    obtain ⟨-, hs, -⟩ := C.map k e h1
    exact ⟨fun _ _ => .inl (carried_byKind Ck hs false), fun _ h => absurd (.inr (.inr (.inr h))) (Ck.meths hs).1⟩
  · rintro kvs kv d x rfl
    exact absurd (hasType_smap hv) hsp.2.2
  · exact C.tag
  · exact C.null

theorem part_type (G : GoTypes W.E W.ptrTo) (hv : HasType W.E t v) {t' : TId} {v' : Val} (h : Part W.E t v t' v') : HasType W.E t' v' := by
  have held : ∀ {d x}, InIface W.E (.iface d x) → HasType W.E d x := fun h => by cases h; assumption
  cases h with
  | ptr hk =>
    rcases has_ptr G hk hv with h | ⟨_, h, h1⟩
    · cases h
    · cases h; exact h1
  | slice hk hm =>
    rcases has_slice G hk hv with h | ⟨_, h, h1⟩
    · cases h
    · cases h; exact h1 _ hm
  | array hk hm =>
    obtain ⟨_, h, -, h1⟩ := has_array G hk hv
    cases h; exact h1 _ hm
  | key hk hm =>
    rcases has_map G hk hv with h | ⟨_, h, h1, -⟩
    · cases h
    · cases h; exact h1 _ hm
  | elem hk hm =>
    rcases has_map G hk hv with h | ⟨_, h, -, h1⟩
    · cases h
    · cases h; exact h1 _ hm
  | field hk hf hx =>
    cases hv with
    | struct hk' _ _ h => rw [hk] at hk'; cases hk'; exact h _ _ _ hf hx
    | iface _ h => cases h
  | iface =>
    cases hv with
    | iface _ h => exact held h
  | skey hm he =>
    cases hv with
    | smap _ h _ => exact held (he ▸ h _ hm)
    | iface _ h => cases h
  | selem hm he =>
    cases hv with
    | smap _ _ h => exact held (he ▸ h _ hm)
    | iface _ h => cases h

theorem within_type (G : GoTypes W.E W.ptrTo) (hv : HasType W.E t v) {t' : TId} {v' : Val} (h : Within W.E t v t' v') : HasType W.E t' v' := by
  induction h with
  | refl => exact hv
  | step _ hp ih => exact part_type G ih hp

theorem allCarried_fine (G : GoTypes W.E W.ptrTo) (hv : HasType W.E t v) (A : AllCarried W o t v) : AllFine W M o t v :=
  fun t' v' hw => carried_fine (within_type G hv hw) (A _ _ hw) fun k e kvs kv hk hv' hkv => by
    subst hv'; exact A _ _ (.step hw (.key hk hkv))

/-- C55: if two values of a type are encoded as the same text then they are alike: equal but for
the order of map entries, the sign of a zero and what is left out of structs in both. They may be
anywhere in memory, and the maps in them may be iterated in different orders. -/
theorem C55_lossless {order : Path → Nat → List Nat} (D : DocReady W H M o) (D' : DocReady { W with order := order } H' M' o) {w w' : Addr}
    (hx : ReprE W.E H.mem (some (t, w)) (.iface t v)) (hx' : ReprE W.E H'.mem (some (t, w')) (.iface t v')) {opts : List (Option Opt)}
    (ho : prepare opts = .ok o) (A : AllCarried W o t v) (A' : AllCarried W o t v') {n n' : Nat} {b : Bytes}
    (h : marshalOpts W H n (some (t, w)) opts = .ret (some b) none)
    (h' : marshalOpts { W with order := order } H' n' (some (t, w')) opts = .ret (some b) none) : Alike W o t v v' := by
  have typed : ∀ {H : Heap} {w v}, ReprE W.E H.mem (some (t, w)) (.iface t v) → HasType W.E t v := by
    intro H w v hx
    rcases reprE_cases (W := W) (H := H) hx with h | ⟨d, y, h, p, hp⟩
    · cases h
    · cases h; exact repr_hasType hp
  have G : GoTypes W.E W.ptrTo := D.ready.types
  obtain ⟨j, c1, d1⟩ := (C30_document_partial D hx (allCarried_fine G (typed hx) A) ho).1 b h
  obtain ⟨j', c2, d2⟩ := (C30_document_partial D' hx' (allCarried_fine (W := { W with order := order }) G (typed hx') (fun t' x hw =>
    have C := A' t' x hw
    ⟨C.1, C.2, C.3, fun x h => ⟨⟨(C.4 x h).1.1, (C.4 x h).1.2, (C.4 x h).1.3, (C.4 x h).1.4⟩, (C.4 x h).2⟩, C.5, C.6, C.7, C.8, C.9, C.10, C.11, C.12, C.13, C.14,
      fun m y a1 a2 a3 a4 => ⟨(C.15 m y a1 a2 a3 a4).1, (C.15 m y a1 a2 a3 a4).2⟩, C.16⟩)) ho).1 b h'
  have := jsonText_unique (compact_isText c1) (compact_isText c2)
  subst this
  exact denotes_alike (W := W) (W' := { W with order := order }) rfl rfl rfl G (sizeOf v + 1) (Nat.lt_succ_self _) (typed hx) (typed hx') A A' d1 d2

theorem alike_eq (G : GoTypes W.E W.ptrTo) (h : Alike W o t v v') : HasType W.E t v → HasType W.E t v' →
    (∀ t' x, Within W.E t v t' x → Whole W o t') → v = v' := by
  induction h with
  | refl => exact fun _ _ _ => rfl
  | @float t w b b' _ =>
    intro hv _ hw
    cases hv with
    | float hk => exact absurd hk ((hw _ _ .refl).float w)
    | iface _ h => cases h
  | ptr hk _ ih =>
    intro hv hv' hw
    rw [ih (part_type G hv (.ptr hk)) (part_type G hv' (.ptr hk)) fun t' x h => hw t' x (within_trans (.step .refl (.ptr hk)) h)]
  | @slice t e vs vs' hk hl _ ih =>
    intro hv hv' hw
    congr 1
    refine List.ext_getElem? fun i => ?_
    cases hx : vs[i]? with
    | none => rw [List.getElem?_eq_none_iff] at hx; exact (List.getElem?_eq_none_iff.mpr (by omega)).symm
    | some x =>
      obtain ⟨x', hx'⟩ := getElem?_len hl hx
      have m1 := List.mem_of_getElem? hx
      have m2 := List.mem_of_getElem? hx'
      rw [hx', ih i x x' hx hx' (part_type G hv (.slice hk m1)) (part_type G hv' (.slice hk m2)) fun t' y h => hw t' y (within_trans (.step .refl (.slice hk m1)) h)]
  | @array t n e vs vs' hk hl _ ih =>
    intro hv hv' hw
    congr 1
    refine List.ext_getElem? fun i => ?_
    cases hx : vs[i]? with
    | none => rw [List.getElem?_eq_none_iff] at hx; exact (List.getElem?_eq_none_iff.mpr (by omega)).symm
    | some x =>
      obtain ⟨x', hx'⟩ := getElem?_len hl hx
      have m1 := List.mem_of_getElem? hx
      have m2 := List.mem_of_getElem? hx'
      rw [hx', ih i x x' hx hx' (part_type G hv (.array hk m1)) (part_type G hv' (.array hk m2)) fun t' y h => hw t' y (within_trans (.step .refl (.array hk m1)) h)]
  | map hk => exact fun _ _ hw => absurd hk ((hw _ _ .refl).map _ _)
  | @struct t v v' hs hst _ _ _ ih =>
    intro hv hv' hw
    obtain ⟨fs, hk⟩ := hst
    obtain ⟨vs, rfl, hl, ht⟩ := has_struct hk hs hv
    obtain ⟨vs', rfl, hl', ht'⟩ := has_struct hk hs hv'
    congr 1
    refine List.ext_getElem? fun i => ?_
    cases hx : vs[i]? with
    | none => rw [List.getElem?_eq_none_iff] at hx; exact (List.getElem?_eq_none_iff.mpr (by omega)).symm
    | some x =>
      obtain ⟨x', hx'⟩ := getElem?_len (hl.symm.trans hl') hx
      obtain ⟨f, hf⟩ := getElem?_len hl.symm hx
      obtain ⟨name, hc, n1, n2, n3⟩ := (hw _ _ .refl).field fs i f hs hk hf
      have hno : ¬ LeftOut o (.struct vs) ⟨[i], f, name⟩ := by
        rintro (h | h | ⟨y, -, h | h⟩)
        · exact n3 h
        · cases h
        · exact n1 h.1
        · exact n2 h.1
      rw [hx', ih _ x x' hc hno (.last hx) (.last hx') (ht i f x hf hx) (ht' i f x' hf hx') fun t' y h => hw t' y (within_trans (.step .refl (.field hk hf hx)) h)]

/-- C55 where nothing can get lost: without maps and floats, and with structs all of whose fields
are members never left out, equal texts mean equal values. -/
theorem C55_equal {order : Path → Nat → List Nat} (D : DocReady W H M o) (D' : DocReady { W with order := order } H' M' o) {w w' : Addr}
    (hx : ReprE W.E H.mem (some (t, w)) (.iface t v)) (hx' : ReprE W.E H'.mem (some (t, w')) (.iface t v')) {opts : List (Option Opt)}
    (ho : prepare opts = .ok o) (A : AllCarried W o t v) (A' : AllCarried W o t v') (hw : ∀ t' x, Within W.E t v t' x → Whole W o t') {n n' : Nat} {b : Bytes}
    (h : marshalOpts W H n (some (t, w)) opts = .ret (some b) none)
    (h' : marshalOpts { W with order := order } H' n' (some (t, w')) opts = .ret (some b) none) : v = v' := by
  have typed : ∀ {H : Heap} {w v}, ReprE W.E H.mem (some (t, w)) (.iface t v) → HasType W.E t v := by
    intro H w v hx
    rcases reprE_cases (W := W) (H := H) hx with h | ⟨d, y, h, p, hp⟩
    · cases h
    · cases h; exact repr_hasType hp
  exact alike_eq D.ready.types (C55_lossless D D' hx hx' ho A A' h h') (typed hx) (typed hx') hw

end Jettison.Props
