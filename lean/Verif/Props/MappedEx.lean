import Verif.Props.Mapped
import Verif.Props.CutEx
import Verif.Props.DocumentEx

/-!
# A struct as a map: examples
-/

namespace Jettison.Props
open Jettison Jettison.Spec Jettison.Model Jettison.Proofs

deriving instance DecidableEq for MField

def baseFields : List FieldDef := [fld (b! "ID") 0 0 (b! "id"), fld (b! "When") 28 8 (b! "when"), fld (b! "Name") 2 16]

/-- The members of `Base`. -/
def baseList : List MField :=
  [⟨[0], fld (b! "ID") 0 0 (b! "id"), b! "id"⟩, ⟨[1], fld (b! "When") 28 8 (b! "when"), b! "when"⟩, ⟨[2], fld (b! "Name") 2 16, b! "Name"⟩]

theorem baseHas : HasFields shopW.E 40 baseFields := by unfold HasFields; decide +kernel

theorem base_list : MembersOf shopW.U.isLetter shopW.U.isDigit shopW.E 40 baseList := by
  have R := shop_ready []
  have hs : structFields shopW.E shopW.U shopW.grow shopW.sort shopW.tfuel 40 = some ((structFields shopW.E shopW.U shopW.grow shopW.sort shopW.tfuel 40).getD []) := by
    decide +kernel
  obtain ⟨g, hg, hb⟩ := members_of R.tab R.sort (R.apart 40) hs
  have e : ∀ z ∈ (structFields shopW.E shopW.U shopW.grow shopW.sort shopW.tfuel 40).getD [],
      g z = ⟨z.index, baseFields.getD (z.index.headD 0) (fld [] 0 0), z.name⟩ := by
    intro z hz
    obtain ⟨k, hp, hd⟩ := chosen_flat baseHas (by decide) ((hg.2 (g z)).mp (List.mem_map_of_mem hz))
    have h1 := (hb z hz).1.path
    have h2 := (hb z hz).1.name
    generalize g z = m at hp hd h1 h2
    obtain ⟨p, d, nm⟩ := m
    simp only at hp hd h1 h2
    subst h1 h2
    rw [hp, List.headD_cons, List.getD_eq_getElem?_getD, hd, Option.getD_some]
  rw [List.map_congr_left e] at hg
  have : ((structFields shopW.E shopW.U shopW.grow shopW.sort shopW.tfuel 40).getD []).map (fun z : Fld =>
      (⟨z.index, baseFields.getD (z.index.headD 0) (fld [] 0 0), z.name⟩ : MField)) = baseList := by decide +kernel
  rwa [this] at hg

theorem base_like : LikeMap shopW 40 := by
  have no : ∀ (s : Bytes) {f : FieldDef}, tagContains (parseTag f.tag).2 s = false → ¬ HasOpt f s :=
    fun s f h h' => by rw [(hasOpt_iff _ _).mp h'] at h; cases h
  refine ⟨⟨_, baseHas⟩, byKind_of (by decide +kernel), fun m hm => ?_⟩
  have hm := (base_list.2 m).mpr hm
  simp only [baseList, List.mem_cons, List.not_mem_nil, or_false] at hm
  rcases hm with rfl | rfl | rfl
  all_goals refine ⟨fun h => no _ (by decide +kernel) h.1, fun h => no _ (by decide +kernel) h.1, fun ⟨k, hk⟩ => (by cases hk), ?_⟩
  · exact ⟨[0x69, 0x64], by simp [IsScalar], by decide +kernel⟩
  · exact ⟨[0x77, 0x68, 0x65, 0x6E], by simp [IsScalar], by decide +kernel⟩
  · exact ⟨[0x4E, 0x61, 0x6D, 0x65], by simp [IsScalar], by decide +kernel⟩

/-- A `Base`, and a map with its members. -/
def baseCells : List (Addr × Cell) :=
  [(100, .int (.int 9)), (108, .int (.int64 1000000000)), (116, .str (b! "base")), (200, .hmap [(300, 400), (320, 420), (340, 440)]),
   (300, .str (b! "when")), (320, .str (b! "Name")), (340, .str (b! "id")), (400, .eface (some (28, 108))), (420, .eface (some (2, 116))), (440, .eface (some (0, 100)))]

def baseV : Val := .struct [.int (.int 9), .int (.int64 1000000000), .str (b! "base")]

def baseKvs : List (Val × Val) :=
  [(.str (b! "when"), .iface 28 (.int (.int64 1000000000))), (.str (b! "Name"), .iface 2 (.str (b! "base"))), (.str (b! "id"), .iface 0 (.int (.int 9)))]

theorem base_map : MemberMap shopW defaultEncOpts 40 baseV baseKvs := by
  have no : ∀ (s : Bytes) {f : FieldDef}, tagContains (parseTag f.tag).2 s = false → ¬ HasOpt f s :=
    fun s f h h' => by rw [(hasOpt_iff _ _).mp h'] at h; cases h
  refine ⟨baseList, [⟨[1], fld (b! "When") 28 8 (b! "when"), b! "when"⟩, ⟨[2], fld (b! "Name") 2 16, b! "Name"⟩, ⟨[0], fld (b! "ID") 0 0 (b! "id"), b! "id"⟩],
    base_list, by decide +kernel, fun m => ?_, rfl, ?_⟩
  · constructor
    · intro hm
      simp only [List.mem_cons, List.not_mem_nil, or_false] at hm
      refine ⟨by rcases hm with rfl | rfl | rfl <;> simp [baseList], ?_⟩
      rintro (h | h | ⟨x, -, ⟨h, -⟩ | ⟨h, -⟩⟩)
      · rcases h with ⟨_, h, -⟩ | ⟨_, h, -⟩ <;> cases h
      · rcases hm with rfl | rfl | rfl <;> cases h
      · rcases hm with rfl | rfl | rfl <;> exact no _ (by decide +kernel) h
      · rcases hm with rfl | rfl | rfl <;> exact no _ (by decide +kernel) h
    · rintro ⟨hm, -⟩
      simp only [baseList, List.mem_cons, List.not_mem_nil, or_false] at hm
      rcases hm with rfl | rfl | rfl <;> simp
  · intro i m kv h1 h2
    match i, h1, h2 with
    | 0, h1, h2 => cases h1; cases h2; exact ⟨rfl, _, .last rfl, .value fun ⟨k, hk⟩ => by cases hk⟩
    | 1, h1, h2 => cases h1; cases h2; exact ⟨rfl, _, .last rfl, .value fun ⟨k, hk⟩ => by cases hk⟩
    | 2, h1, h2 => cases h1; cases h2; exact ⟨rfl, _, .last rfl, .value fun ⟨k, hk⟩ => by cases hk⟩

theorem shop_anyMap : AnyMap shopW 60 := ⟨byKind_of (by decide +kernel), 2, 10, rfl, rfl, ⟨0, rfl⟩, byKind_of (by decide +kernel)⟩

theorem base_text : marshalOpts shopW (shopH baseCells) 9 (some (40, 100)) [] = .ret (some (b! "{\"id\":9,\"when\":1000000000,\"Name\":\"base\"}")) none := by
  decide +kernel

theorem baseMap_text : marshalOpts shopW (shopH baseCells) 9 (some (60, 200)) [] = .ret (some (b! "{\"Name\":\"base\",\"id\":9,\"when\":1000000000}")) none := by
  decide +kernel

/-- The hypotheses of `C82_calls`, and so of `C82_map` and `C82_struct`. -/
example : ∃ ms ms', b! "{\"id\":9,\"when\":1000000000,\"Name\":\"base\"}" = objectOf ms ∧ InOrder defaultEncOpts ms ms' ∧
    b! "{\"Name\":\"base\",\"id\":9,\"when\":1000000000}" = objectOf ms' :=
  (C82_calls (opts := []) (n := 9) (n' := 9) (shop_faults baseCells) (shop_writes baseCells) shop_pathFree base_like shop_anyMap rfl base_map (by decide)
    (w := 100) (w' := 200) (shop_holds 9 (by decide +kernel)) (shop_holds 9 (by decide +kernel)) (timesB_fine (n := 6) (by decide +kernel))
    (timesB_fine (n := 6) (by decide +kernel)) (by rw [base_text]; intro h; cases h) (by rw [baseMap_text]; intro h; cases h)).2 rfl (told_small (by
      intro t' v' h kvs hk
      have := allParts_within (E := shopW.E) (P := fun _ v => match v with | .map kvs => kvs.length ≤ 1 | .smap kvs => kvs.length ≤ 1 | _ => true) (n := 7)
        (by decide +kernel) h
      rcases hk with rfl | rfl <;> simpa using this)) _ _ base_text baseMap_text

end Jettison.Props
