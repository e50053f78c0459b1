import Verif.Proofs.LiveText
import Verif.Props.Live
import Verif.Props.DocumentEx

/-!
# The text is JSON, also when methods change the data while it is encoded (C69)

There is no value that the text could be the document of (C30): what has been written so far may
show the data as it was, and what follows the data as it is by then. Still the text is well-formed.
-/

namespace Jettison.Props
open Jettison Jettison.Spec Jettison.Model Jettison.Proofs

variable {σ : Type} {W : World} {P : Around σ} {T : σ → Places}

/-- C69. Whatever the methods change, a call that succeeds returns one JSON text without whitespace,
behind what the destination held before. -/
theorem C69_well_formed (R : Grounds W) (C : Careful W.E P T) (hl : FormatContract W.fmt) (lim n : Nat) (x : Eface) (opts : List (Option Opt)) (s : σ)
    (hx : (T s).Held W.E x) (D : ∀ o, prepare opts = .ok o → Decent W P T o) :
    (∀ b, (marshalL W P lim n x opts s).1 = .ret b none → ∃ j out, b = some out ∧ CompactText j out) ∧
    ∀ dst b, (appendL W P lim n dst x opts s).1 = .ret b none → ∃ j out, b = some (dst ++ out) ∧ CompactText j out := by
  cases x with
  | none =>
    refine ⟨fun b hb => ?_, fun dst b hb => ?_⟩
    · cases hb; exact ⟨_, _, rfl, Gr.null⟩
    · cases hb; exact ⟨_, _, rfl, Gr.null⟩
  | some x =>
    simp only [marshalL, appendL]
    cases hp : prepare opts with
    | error e => exact ⟨fun b hb => by simp at hb, fun dst b hb => by simp at hb⟩
    | ok o =>
      have key := fun dst => yields_appendJSON (text_run (lim := lim) R C (D o hp) hl n).2 hx [] dst
      refine ⟨fun b hb => ?_, fun dst b hb => ?_⟩
      · simp only at hb
        cases hr : (appendJSONL W (runL W P o lim n) [] (some x) [] s).1 with
        | ok b' =>
          rw [hr] at hb
          simp only [marshalRet, Ret.ret.injEq, and_true] at hb
          obtain ⟨j, out, h1, h2⟩ := key [] b' hr
          exact ⟨j, out, by rw [← hb, h1]; rfl, h2⟩
        | _ => rw [hr] at hb; simp [marshalRet] at hb
      · simp only at hb
        cases hr : (appendJSONL W (runL W P o lim n) [] (some x) dst s).1 with
        | ok b' =>
          rw [hr] at hb
          simp only [appendRet, Ret.ret.injEq, and_true] at hb
          obtain ⟨j, out, h1, h2⟩ := key dst b' hr
          exact ⟨j, out, by rw [← hb, h1], h2⟩
        | _ => rw [hr] at hb; simp [appendRet] at hb

/-! The hypotheses hold of the map of `stirP`, which has one more entry once the method of its first
value has run, and of the ring of nodes, which that method opens. -/

def brewVals : List (TId × Loc) :=
  [(60, .tmp 290), (2, .heap 300), (10, .heap 316), (22, .heap 256), (2, .heap 332), (10, .heap 348), (129, .tmp 500), (64, .heap 500), (0, .heap 500), (129, .heap 508)]

def brewT (_ : Nat) : Places := placesOf brewVals [(2, 10, 290)]

theorem brew_careful : Careful shopW.E stirP brewT := by
  have sane : ∀ s, Sane shopW.E (stirP.mem s) (brewT s) := by
    have key : ∀ s, s ≤ 3 → Sane shopW.E (fun a => ((stirCells s).find? (·.1 = a)).map (·.2)) (brewT s) := by
      intro s hs
      have : s = 0 ∨ s = 1 ∨ s = 2 ∨ s = 3 := by omega
      rcases this with rfl | rfl | rfl | rfl <;> exact saneB_sound shop_inl (by decide +kernel)
    intro s
    exact key _ (Nat.min_le_right s 3)
  refine ⟨sane, fun s k c t w dst _ => le_refl _, ?_, ?_⟩
  · intro s path n k e a x hm hx
    obtain ⟨es, hes, hall⟩ := (sane s).map k e a hm
    have hes : (stirMem s).at (.heap a) = some (.hmap es) := hes
    simp only [stirP, hes] at hx
    exact hall x (List.mem_of_getElem? hx)
  · intro s path n t p x hv hs hx
    obtain ⟨es, hes, hall⟩ := laid_smap shop_grounds.types hs ((sane s).val t p hv)
    have hes : (stirMem s).at p = some (.smap es) := hes
    simp only [stirP, hes] at hx
    exact hall x (List.mem_of_getElem? hx)

/-- Strings are plain, and there are no times. -/
theorem stir_cells {s : Nat} {p : Loc} {c : Cell} (h : (stirMem s).at p = some c) :
    (∀ x, c = .str x → unescape x = some x) ∧ ∀ x, c ≠ .time x := by
  cases p with
  | tmp w => cases h; exact ⟨fun x h => (by cases h), fun x h => (by cases h)⟩
  | heap a =>
    simp only [Mem.at] at h
    split at h
    · cases h
    simp only [stirMem, Option.map_eq_some_iff] at h
    obtain ⟨y, hy, rfl⟩ := h
    have hm := List.mem_of_find?_eq_some hy
    have key : ∀ s, s ≤ 3 → ((stirCells s).all fun c => match c.2 with | .str x => decide (unescape x = some x) | .time _ => false | _ => true) = true := by
      intro s hs
      have : s = 0 ∨ s = 1 ∨ s = 2 ∨ s = 3 := by omega
      rcases this with rfl | rfl | rfl | rfl <;> decide +kernel
    have := List.all_eq_true.mp (key _ (Nat.min_le_right s 3)) y hm
    refine ⟨fun x hx => ?_, fun x hx => ?_⟩
    · rw [hx] at this; exact of_decide_eq_true this
    · rw [hx] at this; cases this

theorem brew_decent : Decent shopW stirP brewT defaultEncOpts := by
  have hu : ∀ f, bmHas defaultEncOpts.flags f = false := by intro f; cases f <;> decide +kernel
  have hspec : ∀ {s t p}, (brewT s).val t p → (shopW.E t).special = none := by
    intro s t p h
    have : (brewVals.all fun x => decide ((shopW.E x.1).special = none)) = true := by decide +kernel
    exact of_decide_eq_true (List.all_eq_true.mp this (t, p) h)
  refine ⟨shop_names, shop_valid, hu _, ?_, ?_, ?_, ?_, ?_, ?_, ?_, ?_, ?_⟩
  · rintro s k c t w dst b (rfl | rfl) - h
    · cases h; exact ⟨_, _, rfl, Gr.num (b! "7") ⟨[], b! "7", [], [], rfl, .inl rfl, .inr ⟨55, [], rfl, by decide, by simp⟩, .inl rfl, .inl rfl⟩⟩
    · cases h; exact ⟨_, _, rfl, Gr.num (b! "8") ⟨[], b! "8", [], [], rfl, .inl rfl, .inr ⟨56, [], rfl, by decide, by simp⟩, .inl rfl, .inl rfl⟩⟩
  · intro s c t w b h; rw [hu] at h; cases h
  · intro s c t w b _ h
    simp only [stirP, shopMeth, MethRes.ok.injEq] at h
    subst h
    unfold univRecv
    split
    · unfold readStr
      split
      · next x hx => exact ⟨x, (stir_cells hx).1 x rfl⟩
      · exact ⟨_, rfl⟩
    · exact ⟨_, rfl⟩
  · intro s t p x _ h; exact absurd rfl ((stir_cells h).2 x)
  · intro s t p x h; rw [hu] at h; cases h
  · intro s t p b hv hs; rw [hspec hv] at hs; cases hs
  · intro s t p k e hv hk
    have : (brewVals.all fun x => match (shopW.E x.1).kind with | .map k _ => decide (k = 2) | _ => true) = true := by decide +kernel
    have := List.all_eq_true.mp this (t, p) hv
    rw [hk] at this
    obtain rfl : k = 2 := of_decide_eq_true this
    exact ⟨fun h => absurd (by decide +kernel) h, fun h => absurd (by decide +kernel) h⟩
  · intro s path n t p x kt w hv hs; rw [hspec hv] at hs; cases hs
  · rintro s t p m hv ⟨fs, hfs⟩ hc ho
    have hk : (shopW.E t).kind = .struct fs := hfs
    have : (brewVals.all fun x => match (shopW.E x.1).kind with
      | .struct fs => fs.all fun f => !f.anonymous && !tagContains (parseTag f.tag).2 (b! "omitnil") | _ => true) = true := by decide +kernel
    have := List.all_eq_true.mp this (t, p) hv
    rw [hk] at this
    simp only [List.all_eq_true, Bool.and_eq_true, Bool.not_eq_true'] at this
    obtain ⟨i, -, hi⟩ := chosen_flat hfs (fun f hf => (this f hf).1) hc
    have h2 := (this _ (List.mem_of_getElem? hi)).2
    rw [(hasOpt_iff _ _).mp ho] at h2
    cases h2

example : (brewT 2).Held shopW.E (some (60, 290)) :=
  .direct (shop_inl 60 (by decide +kernel)) (by decide +kernel : (60, Loc.tmp 290) ∈ brewVals)

example : prepare [] = .ok defaultEncOpts := rfl

/-- At the beginning the map has one entry, at the end it has two. -/
example : (marshalL shopW stirP 10 20 (some (60, 290)) [] 2).1 = .ret (some (b! "{\"k\":[1,2],\"l\":{\"N\":3,\"Next\":null}}")) none ∧
    (appendL shopW stirP 10 20 (b! "x") (some (60, 290)) [] 1).1 = .ret (some (b! "x{\"k\":[1,2]}")) none := by decide +kernel

example : ∃ j, CompactText j (b! "{\"k\":[1,2],\"l\":{\"N\":3,\"Next\":null}}") := by
  obtain ⟨j, out, h1, h2⟩ := (C69_well_formed shop_grounds brew_careful toyFmt_contract 10 20 (some (60, 290)) [] 2
    (.direct (shop_inl 60 (by decide +kernel)) (by decide +kernel : (60, Loc.tmp 290) ∈ brewVals))
    (fun o ho => by cases ho; exact brew_decent)).1 _ (show _ = Ret.ret (some (b! "{\"k\":[1,2],\"l\":{\"N\":3,\"Next\":null}}")) none by decide +kernel)
  cases h1
  exact ⟨j, h2⟩

end Jettison.Props
