import Verif.Props.Lossless
import Verif.Props.Html

/-!
# Data that can be recovered from its text: examples
-/

namespace Jettison.Props
open Jettison Jettison.Spec Jettison.Model Jettison.Proofs

/-- A sufficient test for `Carried` with the default options. -/
def carriedB (t : TId) (v : Val) : Bool :=
  fineB t v &&
  ((shopW.E t).special.isNone || (shopW.E t).special == some .duration || (shopW.E t).special == some .time) &&
  (match v with | .time x => decide (x.offset % 60 = 0 ∧ x.offset.natAbs < 360000) | _ => true) &&
  ((shopW.E t).special.isSome || (!anyMeth (shopW.E t).meths && !anyMeth (shopW.E t).pmeths)) &&
  (match (shopW.E t).kind with | .iface _ | .other | .float _ => false | _ => true) &&
  (match v with | .str s => s.all fun c => decide (c.toNat < 0x80) | _ => true) &&
  (match (shopW.E t).kind with
    | .ptr e => (match (shopW.E e).kind with | .ptr _ | .slice _ | .map _ _ | .iface _ => false | _ => true)
    | .map k _ => (shopW.E k).special.isNone && (match (shopW.E k).kind with | .string | .int _ => true | _ => false)
    | _ => true)

theorem carriedB_carried {t : TId} {v : Val} (h : carriedB t v = true) : Carried shopW defaultEncOpts t v := by
  simp only [carriedB, Bool.and_eq_true] at h
  obtain ⟨⟨⟨⟨⟨⟨h0, h1⟩, h2⟩, h3⟩, h4⟩, h5⟩, h6⟩ := h
  have F := fineB_fine h0
  have hu : ∀ f, bmHas defaultEncOpts.flags f = false := by intro f; cases f <;> decide +kernel
  have anyM : ∀ {m : MethSet}, anyMeth m = false → ¬ MethSet.any m := fun h h' => by rw [(anyMeth_iff _).mpr h'] at h; cases h
  constructor
  · simp only [Bool.or_eq_true, Option.isNone_iff_eq_none, beq_iff_eq] at h1
    rcases h1 with (h | h) | h
    · exact .inl h
    · exact .inr (.inl h)
    · exact .inr (.inr h)
  · exact fun _ => .inr (by decide +kernel)
  · exact fun _ => ⟨hu _, by decide +kernel⟩
  · rintro x rfl
    simp only [decide_eq_true_eq] at h2
    exact ⟨F.time x rfl, h2⟩
  · intro hs
    simp only [hs, Option.isSome_none, Bool.false_or, Bool.and_eq_true, Bool.not_eq_true'] at h3
    exact ⟨anyM h3.1, anyM h3.2⟩
  · rintro ⟨n, hn⟩; rw [hn] at h4; cases h4
  · intro hn; rw [hn] at h4; cases h4
  · intro w hn; rw [hn] at h4; cases h4
  · rintro s rfl
    simp only [List.all_eq_true, decide_eq_true_eq] at h5
    exact .inr (ascii_valid h5)
  · intro _ _ _ _ _ h; rw [hu] at h; cases h
  · intro _ _ _ _ _ _ h; rw [hu] at h; cases h
  · rintro e he hn
    simp only [he] at h6
    rcases hn with ⟨e', h⟩ | ⟨e', h⟩ | ⟨k, e', h⟩ | ⟨n, h⟩ <;> (rw [h] at h6; cases h6)
  · exact fun _ _ => hu _
  · intro k e hk
    simp only [hk, Bool.and_eq_true, Option.isNone_iff_eq_none] at h6
    refine ⟨hu _, h6.1, ?_⟩
    have h7 := h6.2
    split at h7
    · next h => exact .inl h
    · next i h => exact .inr ⟨i, h⟩
    · cases h7
  · exact F.tag
  · exact F.null

theorem carried_ready (cells : List (Addr × Cell)) : DocReady shopW (shopH cells) (univM shopMeth) defaultEncOpts :=
  ⟨shop_ready _, toyFmt_contract, shop_honest _, shop_honestM, shop_names, shop_order, shop_valid, by decide +kernel⟩

/-- A `map[string]Item` in two places, with its entries in different orders and another secret. -/
def stockCells : List (Addr × Cell) :=
  [(100, .hmap [(110, 200), (130, 300)]), (110, .str (b! "a")), (130, .str (b! "b")),
   (200, .str (b! "tea")), (216, .int (.int 0)), (224, .word 0), (232, .str (b! "x")), (248, .int (.int 12)),
   (300, .str (b! "ink")), (316, .int (.int 2)), (324, .word 400), (332, .str []), (348, .int (.int 7)), (400, .int (.int 5))]

def stockCells' : List (Addr × Cell) :=
  [(500, .hmap [(130, 300), (110, 200)]), (110, .str (b! "a")), (130, .str (b! "b")),
   (200, .str (b! "tea")), (216, .int (.int 0)), (224, .word 0), (232, .str (b! "other")), (248, .int (.int 12)),
   (300, .str (b! "ink")), (316, .int (.int 2)), (324, .word 900), (332, .str []), (348, .int (.int 7)), (900, .int (.int 5))]

def teaV (secret : Bytes) : Val := .struct [.str (b! "tea"), .int (.int 0), .nil, .str secret, .int (.int 12)]
def inkV : Val := .struct [.str (b! "ink"), .int (.int 2), .ptr (.int (.int 5)), .str [], .int (.int 7)]
def stockV : Val := .map [(.str (b! "a"), teaV (b! "x")), (.str (b! "b"), inkV)]
def stockV' : Val := .map [(.str (b! "b"), inkV), (.str (b! "a"), teaV (b! "other"))]

theorem stock_carried : AllCarried shopW defaultEncOpts 6 stockV ∧ AllCarried shopW defaultEncOpts 6 stockV' :=
  ⟨fun _ _ h => carriedB_carried (allParts_within (n := 6) (P := carriedB) (by decide +kernel) h),
   fun _ _ h => carriedB_carried (allParts_within (n := 6) (P := carriedB) (by decide +kernel) h)⟩

def stockText : Bytes := b! "{\"a\":{\"name\":\"tea\",\"p\":\"12\"},\"b\":{\"name\":\"ink\",\"qty\":2,\"code\":5,\"p\":\"7\"}}"

/-- The hypotheses of `C55_lossless`. -/
example : Alike shopW defaultEncOpts 6 stockV stockV' :=
  C55_lossless (opts := []) (order := shopW.order) (n := 9) (n' := 9) (b := stockText) (carried_ready stockCells) (carried_ready stockCells')
    (w := 100) (w' := 500) (shop_holds 8 (by decide +kernel)) (shop_holds 8 (by decide +kernel)) rfl stock_carried.1 stock_carried.2
    (by decide +kernel) (by decide +kernel)

/-- A list of three nodes, elsewhere in memory the second time. -/
def listCells (a b c : Addr) : List (Addr × Cell) :=
  [(a, .int (.int 1)), (a + 8, .word b), (b, .int (.int 2)), (b + 8, .word c), (c, .int (.int 3)), (c + 8, .word 0)]

def nodeV3 : Val := .ptr (.struct [.int (.int 1), .ptr (.struct [.int (.int 2), .ptr (.struct [.int (.int 3), .nil])])])

theorem node3_carried : AllCarried shopW defaultEncOpts 129 nodeV3 :=
  fun _ _ h => carriedB_carried (allParts_within (n := 8) (P := carriedB) (by decide +kernel) h)

/-- A test for `Whole` with the default options. -/
def wholeB (t : TId) (_ : Val) : Bool := t == 129 || t == 64 || t == 0

theorem wholeB_whole {t : TId} {v : Val} (h : wholeB t v = true) : Whole shopW defaultEncOpts t := by
  have no : ∀ (s : Bytes) {f : FieldDef}, tagContains (parseTag f.tag).2 s = false → ¬ HasOpt f s :=
    fun s f h h' => by rw [(hasOpt_iff _ _).mp h'] at h; cases h
  simp only [wholeB, Bool.or_eq_true, beq_iff_eq] at h
  rcases h with (h | h) | h <;> subst h
  · exact ⟨nofun, nofun, nofun⟩
  · refine ⟨nofun, nofun, ?_⟩
    intro fs i f _ hk hf
    obtain ⟨name, hc⟩ : ∃ name, ChosenField shopW.U.isLetter shopW.U.isDigit shopW.E 64 ⟨[i], f, name⟩ := by
      have R := shop_ready []
      cases hs : structFields shopW.E shopW.U shopW.grow shopW.sort 9 64 with
      | none =>
        have : (structFields shopW.E shopW.U shopW.grow shopW.sort 9 64).isSome = true := by decide +kernel
        rw [hs] at this; cases this
      | some fl =>
        have hfl : fl.map Fld.index = [[0], [1]] := by
          have : (structFields shopW.E shopW.U shopW.grow shopW.sort 9 64).map (·.map Fld.index) = some [[0], [1]] := by decide +kernel
          rw [hs] at this; exact Option.some.inj this
        obtain ⟨g, ⟨-, hg⟩, hb⟩ := members_of R.tab R.sort (R.apart 64) hs
        have : [i] ∈ fl.map Fld.index := by
          cases hk
          match i, hf with
          | 0, _ => rw [hfl]; decide
          | 1, _ => rw [hfl]; decide
          | i + 2, h => cases h
        obtain ⟨a, ha, hi⟩ := List.mem_map.mp this
        have hc := (hg (g a)).mp (List.mem_map_of_mem ha)
        obtain ⟨k, hp, hd⟩ := chosen_flat (E := shopW.E) (t := 64) hk (by cases hk; decide) hc
        have hp' := (hb a ha).1.path
        rw [hp', hi] at hp
        cases hp
        rw [hf] at hd; cases hd
        refine ⟨(g a).name, ?_⟩
        have : g a = ⟨[i], (g a).decl, (g a).name⟩ := by cases hga : g a; simp_all
        rw [← this]; exact hc
    refine ⟨name, hc, ?_, ?_, ?_⟩
    · cases hk
      match i, hf with
      | 0, h => cases h; exact no _ (by decide +kernel)
      | 1, h => cases h; exact no _ (by decide +kernel)
      | i + 2, h => cases h
    · cases hk
      match i, hf with
      | 0, h => cases h; exact no _ (by decide +kernel)
      | 1, h => cases h; exact no _ (by decide +kernel)
      | i + 2, h => cases h
    · simp [Hidden, defaultEncOpts]
  · exact ⟨nofun, nofun, nofun⟩

/-- The hypotheses of `C55_equal`: two lists of nodes with the same text. -/
example (v : Val) (hv : ReprE shopW.E (shopH (listCells 100 200 300)).mem (some (129, 100)) (.iface 129 v)) (A : AllCarried shopW defaultEncOpts 129 v)
    (h : marshalOpts shopW (shopH (listCells 100 200 300)) 20 (some (129, 100)) [] = .ret (some (b! "{\"N\":1,\"Next\":{\"N\":2,\"Next\":{\"N\":3,\"Next\":null}}}")) none) : 
    nodeV3 = v :=
  C55_equal (opts := []) (order := shopW.order) (n := 20) (n' := 20) (carried_ready (listCells 500 600 700)) (carried_ready (listCells 100 200 300))
    (w := 500) (w' := 100) (shop_holds 8 (by decide +kernel)) hv rfl node3_carried A
    (fun _ _ h => wholeB_whole (allParts_within (n := 8) (P := wholeB) (by decide +kernel) h)) (by decide +kernel) h

/-- The other memory of the previous example holds such a value. -/
example : ReprE shopW.E (shopH (listCells 100 200 300)).mem (some (129, 100)) (.iface 129 nodeV3) ∧
    marshalOpts shopW (shopH (listCells 100 200 300)) 20 (some (129, 100)) [] = .ret (some (b! "{\"N\":1,\"Next\":{\"N\":2,\"Next\":{\"N\":3,\"Next\":null}}}")) none :=
  ⟨shop_holds 8 (by decide +kernel), by decide +kernel⟩

/-- The type in an interface is not in the text: an `int` and a `uint8`. -/
example : marshal shopW (shopH [(100, .slice 200 1), (200, .int (.int 1)), (300, .eface (some (0, 200))), (400, .hmap [(500, 300)]), (500, .str (b! "a"))]) 9 (some (60, 400)) =
    marshal shopW (shopH [(200, .int (.uint8 1)), (300, .eface (some (16, 200))), (400, .hmap [(500, 300)]), (500, .str (b! "a"))]) 9 (some (60, 400)) := by
  decide +kernel

/-- With NilSliceEmpty a nil slice and an empty one have one text. -/
example : marshalOpts shopW (shopH [(100, .slice 0 0)]) 9 (some (56, 100)) [some (.flag .nilSliceEmpty)] =
    marshalOpts shopW (shopH [(100, .slice 8 0)]) 9 (some (56, 100)) [some (.flag .nilSliceEmpty)] ∧
    marshal shopW (shopH [(100, .slice 0 0)]) 9 (some (56, 100)) ≠ marshal shopW (shopH [(100, .slice 8 0)]) 9 (some (56, 100)) := by
  decide +kernel

/-- Two pointers to nothing and a pointer to a nil slice. -/
example : marshal shopW (shopH [(100, .word 0)]) 9 (some (113, 0)) = marshal shopW (shopH [(100, .slice 0 0)]) 9 (some (113, 100)) := by
  decide +kernel

/-! ## A format that reads back -/

/-- Prints the number of least units; a stand-in for `strconv.AppendFloat` with `ReadsBack`. -/
def unitsFmt : FloatFmt := fun w bits e =>
  (if bits / 2 ^ (w.mant + w.exp) % 2 = 1 then b! "-" else []) ++ (fmtNat (finiteUnits w bits) ++ (if e then b! "e+00" else []))

theorem unitsFmt_contract : FormatContract unitsFmt where
  plain w bits _ := ⟨_, _, [], rfl, by split <;> simp, fmtNat_intPart _, .inl rfl⟩
  exp w bits _ := ⟨_, _, [], b! "+", b! "00", rfl, by split <;> simp, fmtNat_intPart _, .inl rfl, .inl rfl, by decide, by decide⟩

theorem unitsFmt_denotes (w : FWidth) (bits : Nat) (e : Bool) : NumDenotes (unitsFmt w bits e) (signedUnits w bits) 0 := by
  refine ⟨if bits / 2 ^ (w.mant + w.exp) % 2 = 1 then b! "-" else [], fmtNat (finiteUnits w bits), [], by split <;> simp, fmtNat_intPart _, .inl rfl, ?_, ?_⟩
  · unfold signedUnits signedVal
    simp only [fracDigits, List.tail_nil, List.append_nil, fmtNat_val]
    by_cases h : bits / 2 ^ (w.mant + w.exp) % 2 = 1
    · simp [h]
    · rw [if_neg h, if_neg h]; rfl
  · cases e with
    | false => exact .inl ⟨by simp [unitsFmt], rfl⟩
    | true => exact .inr ⟨c! 'e', b! "+", b! "00", .inl rfl, .inr (.inl rfl), ⟨nofun, by decide⟩, rfl, rfl⟩

theorem unitsFmt_readsBack (w : FWidth) : ReadsBack unitsFmt w := by
  intro b b' f f' m e _ _ h h'
  have h1 := numDenotes_functional h (unitsFmt_denotes w b f)
  have h2 := numDenotes_functional h' (unitsFmt_denotes w b' f')
  rw [← h1.1, ← h2.1]

end Jettison.Props
