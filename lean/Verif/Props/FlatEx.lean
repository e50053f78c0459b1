import Verif.Props.FlatLoose
import Verif.Props.CutEx
import Verif.Props.DocumentEx

/-!
# Structs with the same members: examples
-/

namespace Jettison.Props
open Jettison Jettison.Spec Jettison.Model Jettison.Proofs

/-- The struct type that the field `i` embeds. -/
def stepInto (E : Env) (s : Option TId) (i : Nat) : Option TId :=
  match s with
  | none => none
  | some u => match (E u).kind with
    | .struct fs => match fs[i]? with
      | some sf => match (E sf.typ).kind with
        | .ptr e => some e
        | _ => some sf.typ
      | none => none
    | _ => none

/-- The declaration at a path. -/
def declAt (E : Env) (t : TId) (path : List Nat) : FieldDef :=
  match path.dropLast.foldl (stepInto E) (some t) with
  | none => fld [] 0 0
  | some u => match (E u).kind with
    | .struct fs => fs.getD (path.getLastD 0) (fld [] 0 0)
    | _ => fld [] 0 0

theorem reaches_into {letter digit : Nat → Bool} {E : Env} {t u : TId} {p : List Nat} {q : List (Nat × Bool)} (h : Reaches letter digit E t p u q) :
    p.foldl (stepInto E) (some t) = some u := by
  induction h with
  | here => rfl
  | step _ h1 h2 h3 ih =>
    unfold HasFields at h1
    rw [List.foldl_append, ih]
    simp only [List.foldl_cons, List.foldl_nil, stepInto, h1, h2]
    obtain ⟨-, -, -, ⟨fs', h4⟩, ⟨-, rfl⟩ | ⟨-, h5, -⟩⟩ := h3
    · unfold HasFields at h4
      rw [h4]
    · rw [h5]

theorem promoted_decl {letter digit : Nat → Bool} {E : Env} {t u : TId} {path : List Nat} {i : Nat} {sf : FieldDef} {name : Bytes} {tagged : Bool}
    {r : List (Nat × Bool)} (h : Promoted letter digit E t path u i sf name tagged r) : declAt E t path = sf := by
  obtain ⟨⟨p, q, h1, rfl, -⟩, ⟨fs, h2, h3⟩, -⟩ := h
  unfold HasFields at h2
  unfold declAt
  rw [List.dropLast_concat, reaches_into h1]
  simp [h2, List.getD_eq_getElem?_getD, h3]

/-- The members of a struct type, from the recorded fields. -/
theorem members_list {W : World} {H : Heap} {M : MethV} (R : Ready W H M) {t : TId} {fl : List Fld} (hs : structFields W.E W.U W.grow W.sort W.tfuel t = some fl) :
    MembersOf W.U.isLetter W.U.isDigit W.E t (fl.map fun z => ⟨z.index, declAt W.E t z.index, z.name⟩) := by
  obtain ⟨g, hg, hb⟩ := members_of R.tab R.sort (R.apart t) hs
  have e : ∀ z ∈ fl, g z = ⟨z.index, declAt W.E t z.index, z.name⟩ := by
    intro z hz
    obtain ⟨h1, u, i, h2⟩ := hb z hz
    have h3 := h1.path
    have h4 := h1.name
    rw [promoted_decl h2]
    generalize g z = m at h3 h4
    obtain ⟨p, d, nm⟩ := m
    simp only at h3 h4
    subst h3 h4
    rfl
  rwa [List.map_congr_left e] at hg

/-- The types of the example. -/
def flatDefs : List TypeDef :=
  [ -- 0: int
    { kind := .int .int, name := b! "int", size := 8 },
    -- 2: string
    { kind := .string, name := b! "string", size := 16 },
    -- 4: type Base struct { ID int `json:"id"`; Name string }
    { kind := .struct [fld (b! "ID") 0 0 (b! "id"), fld (b! "Name") 2 8], name := b! "Base", size := 24 },
    -- 6: type Deep struct { *Base; Qty int `json:"qty,omitempty"`; S int `json:"s,string"` }
    { kind := .struct [emb (b! "Base") 9 0, fld (b! "Qty") 0 8 (b! "qty,omitempty"), fld (b! "S") 0 16 (b! "s,string")], name := b! "Deep", size := 24 },
    -- 8: type Flat struct { Key int `json:"id"`; Name string; Secret int `json:"-"`; S int `json:"s,string"` }
    { kind := .struct [fld (b! "Key") 0 0 (b! "id"), fld (b! "Name") 2 8, fld (b! "Secret") 0 24 (b! "-"), fld (b! "S") 0 32 (b! "s,string")], name := b! "Flat", size := 40 },
    -- 10: interface{}
    { kind := .iface 0, size := 16 },
    -- 12: type Loose struct { ID interface{} `json:"id"`; Name interface{}; S int `json:"s,string"` }
    { kind := .struct [fld (b! "ID") 10 0 (b! "id"), fld (b! "Name") 10 16, fld (b! "S") 0 32 (b! "s,string")], name := b! "Loose", size := 40 } ]

def flatW : World := univW flatDefs
def flatH (cells : List (Addr × Cell)) : Heap := univHeap flatDefs shopMeth cells

theorem flat_ready (cells : List (Addr × Cell)) : Ready flatW (flatH cells) (univM shopMeth) := univ_ready (by decide +kernel) shopMeth cells

theorem flat_std : StdText flatW.E := by
  intro t s hs
  have h : ∀ t, (flatW.E t).special = none := by
    intro t
    simp only [flatW, univW, univE]
    split
    · rfl
    · rw [List.getD_eq_getElem?_getD]
      cases hg : flatDefs[t / 2]? with
      | none => rfl
      | some d =>
        have : ∀ d ∈ flatDefs, d.special = none := by decide +kernel
        exact this d (List.mem_of_getElem? hg)
  rw [h t] at hs; cases hs

theorem flat_ww (cells : List (Addr × Cell)) : WriteReady flatW (flatH cells) (univM shopMeth) :=
  ⟨flat_ready _, toyFmt_contract, by
    rintro path m ctx t w (rfl | rfl)
    · exact .inr <| .inr ⟨b! "7", fun dst => rfl⟩
    · exact .inr <| .inr ⟨b! "8", fun dst => rfl⟩, shop_honestM, fun _ _ => List.reverse_perm _, validText_iff⟩

theorem flat_faults (cells : List (Addr × Cell)) : FaultReady flatW (flatH cells) (univM shopMeth) :=
  ⟨flat_ready _, toyFmt_contract, shop_honestM, fun _ _ => List.reverse_perm _, validText_iff, flat_std⟩

/-- A `Deep` without `Qty`, a `Flat` and a `Loose`. -/
def flatCells : List (Addr × Cell) :=
  [(100, .word 200), (108, .int (.int 0)), (116, .int (.int 5)), (200, .int (.int 9)), (208, .str (b! "n")),
   (300, .int (.int 9)), (308, .str (b! "n")), (324, .int (.int 42)), (332, .int (.int 5)),
   (400, .eface (some (0, 200))), (416, .eface (some (2, 208))), (432, .int (.int 5))]

def deepV : Val := .struct [.ptr (.struct [.int (.int 9), .str (b! "n")]), .int (.int 0), .int (.int 5)]
def flatV : Val := .struct [.int (.int 9), .str (b! "n"), .int (.int 42), .int (.int 5)]

def deepShown : List MField := [⟨[0, 0], fld (b! "ID") 0 0 (b! "id"), b! "id"⟩, ⟨[0, 1], fld (b! "Name") 2 8, b! "Name"⟩, ⟨[2], fld (b! "S") 0 16 (b! "s,string"), b! "s"⟩]
def deepQty : MField := ⟨[1], fld (b! "Qty") 0 8 (b! "qty,omitempty"), b! "qty"⟩
def flatShown : List MField := [⟨[0], fld (b! "Key") 0 0 (b! "id"), b! "id"⟩, ⟨[1], fld (b! "Name") 2 8, b! "Name"⟩, ⟨[3], fld (b! "S") 0 32 (b! "s,string"), b! "s"⟩]

theorem not_leftOut {v x : Val} {m : MField} (hx : FieldAt v m.path x) (h1 : x ≠ .nil) (h2 : tagContains (parseTag m.decl.tag).2 (b! "omitempty") = false) :
    ¬ LeftOut defaultEncOpts v m := by
  rintro (h | h | ⟨y, hy, ⟨-, h⟩ | ⟨h, -⟩⟩)
  · rcases h with ⟨_, h, -⟩ | ⟨_, h, -⟩ <;> cases h
  · rw [fieldAt_iff] at hx
    rw [behindNil_iff, hx] at h
    cases h
  · exact h1 (fieldAt_unique hx hy ▸ h)
  · rw [(hasOpt_iff _ _).mp h] at h2
    cases h2

theorem deep_shown : ShownMembers flatW defaultEncOpts 6 deepV deepShown := by
  have at0 : ∀ {v x : Val} {p : List Nat}, routeV v p = some (some x) → FieldAt v p x := fieldAt_iff.mpr
  refine ⟨_, members_list (flat_ready []) (t := 6) (fl := (structFields flatW.E flatW.U flatW.grow flatW.sort flatW.tfuel 6).getD []) (by decide +kernel), ?_⟩
  · have e : ((structFields flatW.E flatW.U flatW.grow flatW.sort flatW.tfuel 6).getD []).map (fun z : Fld => (⟨z.index, declAt flatW.E 6 z.index, z.name⟩ : MField)) =
        [deepShown[0], deepShown[1], deepQty, deepShown[2]] := by rfl
    rw [e]
    refine ⟨.cons_cons _ (.cons_cons _ (.cons _ (.cons_cons _ .slnil))), fun m hm => ?_⟩
    simp only [List.mem_cons, List.not_mem_nil, or_false] at hm
    rcases hm with rfl | rfl | rfl | rfl
    · exact ⟨fun _ => not_leftOut (at0 rfl) (fun h => by cases h) (by decide +kernel), fun _ => by simp [deepShown]⟩
    · exact ⟨fun _ => not_leftOut (at0 rfl) (fun h => by cases h) (by decide +kernel), fun _ => by simp [deepShown]⟩
    · refine ⟨fun h => absurd h (by simp [deepShown, deepQty]), fun h => (h (.inr (.inr ⟨_, at0 rfl, .inr ⟨?_, ?_⟩⟩))).elim⟩
      · exact (hasOpt_iff _ _).mpr (by decide +kernel)
      · exact .inr (.inl ⟨_, rfl, by unfold IntZero; simp⟩)
    · exact ⟨fun _ => not_leftOut (at0 rfl) (fun h => by cases h) (by decide +kernel), fun _ => by simp [deepShown]⟩

theorem flat_members : SameMembers flatW defaultEncOpts 6 deepV 8 flatV := by
  have opt : ∀ (s : Bytes) {f f' : FieldDef}, f'.tag = f.tag → (HasOpt f' s ↔ HasOpt f s) := fun s f f' h => by simp only [HasOpt, h]
  have at0 : ∀ {v x : Val} {p : List Nat}, routeV v p = some (some x) → FieldAt v p x := fieldAt_iff.mpr
  refine ⟨deepShown, flatShown, deep_shown,
    ⟨_, members_list (flat_ready []) (t := 8) (fl := (structFields flatW.E flatW.U flatW.grow flatW.sort flatW.tfuel 8).getD []) (by decide +kernel), ?_⟩, rfl, ?_⟩
  · have e : ((structFields flatW.E flatW.U flatW.grow flatW.sort flatW.tfuel 8).getD []).map (fun z : Fld => (⟨z.index, declAt flatW.E 8 z.index, z.name⟩ : MField)) =
        flatShown := by rfl
    rw [e]
    refine ⟨List.Sublist.refl _, fun m hm => ⟨fun _ => ?_, fun _ => hm⟩⟩
    simp only [flatShown, List.mem_cons, List.not_mem_nil, or_false] at hm
    rcases hm with rfl | rfl | rfl
    all_goals exact not_leftOut (at0 rfl) (fun h => by cases h) (by decide +kernel)
  · intro i m m' h1 h2
    match i, h1, h2 with
    | 0, h1, h2 => cases h1; cases h2; exact ⟨rfl, rfl, opt _ rfl, opt _ rfl, _, at0 rfl, at0 rfl⟩
    | 1, h1, h2 => cases h1; cases h2; exact ⟨rfl, rfl, opt _ rfl, opt _ rfl, _, at0 rfl, at0 rfl⟩
    | 2, h1, h2 => cases h1; cases h2; exact ⟨rfl, rfl, opt _ rfl, opt _ rfl, _, at0 rfl, at0 rfl⟩

theorem flat_plain : PlainStruct flatW.E 6 false ∧ PlainStruct flatW.E 8 false := by
  have h : ∀ {t fs}, (flatW.E t).kind = .struct fs → IsStruct flatW.E t := fun {t fs} h => ⟨fs, h⟩
  exact ⟨⟨h rfl, byKind_of (by decide +kernel)⟩, ⟨h rfl, byKind_of (by decide +kernel)⟩⟩

theorem deep_text : marshalOpts flatW (flatH flatCells) 9 (some (6, 100)) [] = .ret (some (b! "{\"id\":9,\"Name\":\"n\",\"s\":\"5\"}")) none := by decide +kernel

/-- The hypotheses of `C84_calls`, and so of `C84_text`. -/
example (dst : Bytes) : marshalOpts flatW (flatH flatCells) 9 (some (8, 300)) [] = .ret (some (b! "{\"id\":9,\"Name\":\"n\",\"s\":\"5\"}")) none ∧
    appendOpts flatW (flatH flatCells) 9 dst (some (8, 300)) [] = .ret (some (dst ++ b! "{\"id\":9,\"Name\":\"n\",\"s\":\"5\"}")) none :=
  (C84_calls (opts := []) (n := 9) (n' := 9) (flat_faults flatCells) (flat_ww flatCells) shop_pathFree flat_plain.1
    flat_plain.2 rfl flat_members (w := 100) (w' := 300)
    (univ_repr 9 (by decide +kernel)) (univ_repr 9 (by decide +kernel)) (timesB_fine (n := 6) (by decide +kernel)) (timesB_fine (n := 6) (by decide +kernel))
    (by rw [deep_text]; intro h; cases h) (by decide +kernel) dst).2 rfl (told_small (by
      intro t' v' h kvs hk
      have := allParts_within (E := flatW.E) (P := fun _ v => match v with | .map kvs => kvs.length ≤ 1 | .smap kvs => kvs.length ≤ 1 | _ => true) (n := 7)
        (by decide +kernel) h
      rcases hk with rfl | rfl <;> simpa using this)) _ deep_text

def looseSV : Val := .struct [.iface 0 (.int (.int 9)), .iface 2 (.str (b! "n")), .int (.int 5)]
def looseShown : List MField := [⟨[0], fld (b! "ID") 10 0 (b! "id"), b! "id"⟩, ⟨[1], fld (b! "Name") 10 16, b! "Name"⟩, ⟨[2], fld (b! "S") 0 32 (b! "s,string"), b! "s"⟩]

theorem held_members : HeldMembers flatW defaultEncOpts 6 deepV 12 looseSV := by
  have opt : ∀ (s : Bytes) {f f' : FieldDef}, f'.tag = f.tag → (HasOpt f' s ↔ HasOpt f s) := fun s f f' h => by simp only [HasOpt, h]
  have at0 : ∀ {v x : Val} {p : List Nat}, routeV v p = some (some x) → FieldAt v p x := fieldAt_iff.mpr
  have no : ∀ {s : Bytes} {f : FieldDef} {P : Prop}, tagContains (parseTag f.tag).2 s = false → ¬ (HasOpt f s ∧ P) :=
    fun {s f P} h h' => by rw [(hasOpt_iff _ _).mp h'.1] at h; cases h
  have any : DynType flatW.E 10 := ⟨⟨0, rfl⟩, byKind_of (by decide +kernel)⟩
  have gen : ∀ {t : TId} {v : Val}, ¬ IsIface flatW.E t → Generic flatW defaultEncOpts t v (.iface t v) := fun h => .same (.value h) fun h' => absurd h' h
  have h0 : ¬ IsIface flatW.E 0 := fun ⟨k, hk⟩ => by cases hk
  have h2 : ¬ IsIface flatW.E 2 := fun ⟨k, hk⟩ => by cases hk
  refine ⟨deepShown, looseShown, deep_shown,
    ⟨_, members_list (flat_ready []) (t := 12) (fl := (structFields flatW.E flatW.U flatW.grow flatW.sort flatW.tfuel 12).getD []) (by decide +kernel), ?_⟩, rfl, ?_⟩
  · have e : ((structFields flatW.E flatW.U flatW.grow flatW.sort flatW.tfuel 12).getD []).map (fun z : Fld => (⟨z.index, declAt flatW.E 12 z.index, z.name⟩ : MField)) =
        looseShown := by rfl
    rw [e]
    refine ⟨List.Sublist.refl _, fun m hm => ⟨fun _ => ?_, fun _ => hm⟩⟩
    simp only [looseShown, List.mem_cons, List.not_mem_nil, or_false] at hm
    rcases hm with rfl | rfl | rfl
    all_goals exact not_leftOut (at0 rfl) (fun h => by cases h) (by decide +kernel)
  · intro i m m' h1 h3
    match i, h1, h3 with
    | 0, h1, h3 =>
      cases h1; cases h3
      exact .inr ⟨⟨rfl, no (by decide +kernel), no (by decide +kernel), no (by decide +kernel), any, ⟨_, at0 rfl⟩, _, at0 rfl⟩, _, _, at0 rfl, at0 rfl, gen h0⟩
    | 1, h1, h3 =>
      cases h1; cases h3
      exact .inr ⟨⟨rfl, no (by decide +kernel), no (by decide +kernel), no (by decide +kernel), any, ⟨_, at0 rfl⟩, _, at0 rfl⟩, _, _, at0 rfl, at0 rfl, gen h2⟩
    | 2, h1, h3 => cases h1; cases h3; exact .inl ⟨rfl, rfl, opt _ rfl, opt _ rfl, _, at0 rfl, at0 rfl⟩

theorem loose_struct : PlainStruct flatW.E 12 false := by
  have h : ∀ {t fs}, (flatW.E t).kind = .struct fs → IsStruct flatW.E t := fun {t fs} h => ⟨fs, h⟩
  exact ⟨h rfl, byKind_of (by decide +kernel)⟩

/-- The hypotheses of `C84_held_calls`, and so of `C84_held`. -/
example (dst : Bytes) : marshalOpts flatW (flatH flatCells) 9 (some (12, 400)) [] = .ret (some (b! "{\"id\":9,\"Name\":\"n\",\"s\":\"5\"}")) none ∧
    appendOpts flatW (flatH flatCells) 9 dst (some (12, 400)) [] = .ret (some (dst ++ b! "{\"id\":9,\"Name\":\"n\",\"s\":\"5\"}")) none :=
  (C84_held_calls (opts := []) (n := 9) (n' := 9) (flat_faults flatCells) (flat_ww flatCells) shop_pathFree flat_plain.1
    loose_struct rfl held_members (w := 100) (w' := 400)
    (univ_repr 9 (by decide +kernel)) (univ_repr 9 (by decide +kernel)) (timesB_fine (n := 6) (by decide +kernel)) (timesB_fine (n := 6) (by decide +kernel))
    (by rw [deep_text]; intro h; cases h) (by decide +kernel) dst).2 rfl (told_small (by
      intro t' v' h kvs hk
      have := allParts_within (E := flatW.E) (P := fun _ v => match v with | .map kvs => kvs.length ≤ 1 | .smap kvs => kvs.length ≤ 1 | _ => true) (n := 7)
        (by decide +kernel) h
      rcases hk with rfl | rfl <;> simpa using this)) _ deep_text

/-- Structs with the `string` option, on an integer and on an interface. -/
def strDefs : List TypeDef :=
  [ -- 0: int
    { kind := .int .int, name := b! "int", size := 8 },
    -- 2: interface{}
    { kind := .iface 0, size := 16 },
    -- 4: struct { S int `json:"s,string"` }
    { kind := .struct [fld (b! "S") 0 0 (b! "s,string")], size := 8 },
    -- 6: struct { S interface{} `json:"s,string"` }
    { kind := .struct [fld (b! "S") 2 0 (b! "s,string")], size := 16 } ]

def strCells : List (Addr × Cell) := [(100, .int (.int 5)), (200, .eface (some (0, 100)))]

/-- C84: members to which the `string` option applies have to be the same in both: the option has no effect on what is in interfaces. -/
theorem C84_string_wrong :
    marshalOpts (univW strDefs) (univHeap strDefs shopMeth strCells) 9 (some (4, 100)) [] = .ret (some (b! "{\"s\":\"5\"}")) none ∧
    marshalOpts (univW strDefs) (univHeap strDefs shopMeth strCells) 9 (some (6, 200)) [] = .ret (some (b! "{\"s\":5}")) none :=
  ⟨by decide +kernel, by decide +kernel⟩

end Jettison.Props
