import Verif.Props.Rename
import Verif.Props.RenameFields
import Verif.Props.CutEx

/-!
# Types that differ in their names: examples
-/

namespace Jettison.Props
open Jettison Jettison.Spec Jettison.Model Jettison.Proofs

/-- Relations one to one keep what is shared. -/
theorem sharing_one {letter digit : Nat → Bool} {E : Env} {R : TId → TId → Prop} (h : ∀ u w w', R u w → R u w' → w = w')
    (h' : ∀ u u' w, R u w → R u' w → u = u') (t t' : TId) : SameSharing letter digit E R t t' := by
  intro p u q p2 u2 q2 r w s r2 w2 s2 _ _ _ _ k1 k2
  exact ⟨fun e => by subst e; exact h _ _ _ k1 k2, fun e => by subst e; exact h' _ _ _ k1 k2⟩

/-- The types of the example, in pairs. -/
def renDefs : List TypeDef :=
  [ -- 0: int
    { kind := .int .int, name := b! "int", size := 8 },
    -- 2: type Foo int
    { kind := .int .int, name := b! "Foo", size := 8 },
    -- 4: []int
    { kind := .slice 0, size := 24 },
    -- 6: type Foos []Foo
    { kind := .slice 2, name := b! "Foos", size := 24 },
    -- 8: type Base struct { ID int `json:"id"` }
    { kind := .struct [fld (b! "ID") 0 0 (b! "id")], name := b! "Base", size := 8 },
    -- 10: type Root struct { ID Foo `json:"id"` }
    { kind := .struct [fld (b! "ID") 2 0 (b! "id")], name := b! "Root", size := 8 },
    -- 12: struct { Base; A []int `json:"a"`; P *int `json:"p,string"` }
    { kind := .struct [emb (b! "Base") 8 0, fld (b! "A") 4 8 (b! "a"), fld (b! "P") 1 32 (b! "p,string")], size := 40 },
    -- 14: type T struct { Root; A Foos `json:"a"`; P *Foo `json:"p,string"` }
    { kind := .struct [emb (b! "Root") 10 0, fld (b! "A") 6 8 (b! "a"), fld (b! "P") 5 32 (b! "p,string")], name := b! "T", size := 40 },
    -- 16: type Key string, with MarshalText
    { kind := .string, name := b! "Key", meths := { text := true }, pmeths := { text := true }, size := 16 },
    -- 18: type Word string, with MarshalText
    { kind := .string, name := b! "Word", meths := { text := true }, pmeths := { text := true }, size := 16 },
    -- 20: map[Key]struct { ... }
    { kind := .map 16 12, size := 8 },
    -- 22: type M map[Word]T
    { kind := .map 18 14, name := b! "M", size := 8 },
    -- 24: interface{}
    { kind := .iface 0, size := 16 },
    -- 26: []interface{}
    { kind := .slice 24, size := 24 } ]

theorem ren_ok : univOk renDefs = true := by decide +kernel

def renW : World := univW renDefs
def renH (cells : List (Addr × Cell)) : Heap := univHeap renDefs shopMeth cells

/-- The pairs. -/
def renPairs : List (Nat × Nat) := [(0, 2), (4, 6), (8, 10), (12, 14), (16, 18), (20, 22), (24, 24), (26, 26)]

/-- The pairs and the pointers to them. -/
inductive Ren : Nat → Nat → Prop
  | base {t t'} : (t, t') ∈ renPairs → Ren t t'
  | ptr {t t'} : Ren t t' → Ren (2 * t + 1) (2 * t' + 1)

theorem pairs_even {t t' : Nat} (h : (t, t') ∈ renPairs) : t % 2 = 0 ∧ t' % 2 = 0 := by
  have : ∀ x ∈ renPairs, x.1 % 2 = 0 ∧ x.2 % 2 = 0 := by decide +kernel
  exact this _ h

theorem ren_one {u w w' : Nat} (h : Ren u w) (h' : Ren u w') : w = w' := by
  induction h generalizing w' with
  | base h =>
    cases h' with
    | base h' =>
      have : ∀ x ∈ renPairs, ∀ y ∈ renPairs, x.1 = y.1 → x.2 = y.2 := by decide +kernel
      exact this _ h _ h' rfl
    | ptr _ => have := (pairs_even h).1; omega
  | ptr h ih =>
    generalize hu : 2 * _ + 1 = u at h'
    cases h' with
    | base h' => have := (pairs_even h').1; omega
    | ptr h' =>
      have e := Nat.mul_left_cancel (by decide) (Nat.add_right_cancel hu)
      subst e
      rw [ih h']

theorem ren_one' {u u' w : Nat} (h : Ren u w) (h' : Ren u' w) : u = u' := by
  induction h generalizing u' with
  | base h =>
    cases h' with
    | base h' =>
      have : ∀ x ∈ renPairs, ∀ y ∈ renPairs, x.2 = y.2 → x.1 = y.1 := by decide +kernel
      exact this _ h _ h' rfl
    | ptr _ => have := (pairs_even h).2; omega
  | ptr h ih =>
    generalize hu : 2 * _ + 1 = u at h'
    cases h' with
    | base h' => have := (pairs_even h').2; omega
    | ptr h' =>
      have e := Nat.mul_left_cancel (by decide) (Nat.add_right_cancel hu)
      subst e
      rw [ih h']

theorem univE_ptr (defs : List TypeDef) (t : Nat) : univE defs (2 * t + 1) =
    { kind := .ptr t, meths := if t % 2 = 1 then {} else (defs.getD (t / 2) { kind := .other }).pmeths, size := 8 } := by
  have h1 : (2 * t + 1) % 2 = 1 := Nat.mul_add_mod ..
  have h2 : (2 * t + 1) / 2 = t := by rw [Nat.mul_add_div (by decide)]; rfl
  have h3 : (2 * t + 1) / 4 = t / 2 := by omega
  simp only [univE, if_pos h1, h2, h3]

/-- What holds of the pairs, one by one. -/
theorem pairs_cases {t t' : Nat} (h : (t, t') ∈ renPairs) :
    (t = 0 ∧ t' = 2) ∨ (t = 4 ∧ t' = 6) ∨ (t = 8 ∧ t' = 10) ∨ (t = 12 ∧ t' = 14) ∨ (t = 16 ∧ t' = 18) ∨ (t = 20 ∧ t' = 22) ∨ (t = 24 ∧ t' = 24) ∨
      (t = 26 ∧ t' = 26) := by
  simpa [renPairs] using h

theorem ren_specials {t t' : Nat} (h : Ren t t') : (renW.E t').special = (renW.E t).special ∧ (renW.E t').pmeths = (renW.E t).pmeths := by
  cases h with
  | base h =>
    have : ∀ x ∈ renPairs, (univE renDefs x.2).special = (univE renDefs x.1).special ∧ (univE renDefs x.2).pmeths = (univE renDefs x.1).pmeths := by decide +kernel
    exact this _ h
  | ptr h => exact ⟨by show (univE _ _).special = (univE _ _).special; rw [univE_ptr, univE_ptr],
      by show (univE _ _).pmeths = (univE _ _).pmeths; rw [univE_ptr, univE_ptr]⟩

theorem ren_methods {t t' : Nat} (h : Ren t t') : (renW.E t').meths = (renW.E t).meths := by
  cases h with
  | base h =>
    have : ∀ x ∈ renPairs, (univE renDefs x.2).meths = (univE renDefs x.1).meths := by decide +kernel
    exact this _ h
  | ptr h =>
    show (univE _ _).meths = (univE _ _).meths
    rw [univE_ptr, univE_ptr]
    cases h with
    | base h =>
      have : ∀ x ∈ renPairs, (if x.2 % 2 = 1 then {} else (renDefs.getD (x.2 / 2) { kind := .other }).pmeths : MethSet) =
        if x.1 % 2 = 1 then {} else (renDefs.getD (x.1 / 2) { kind := .other }).pmeths := by decide +kernel
      exact this _ h
    | ptr h => simp

theorem no_tag {letter digit : Nat → Bool} (n : Bytes) : ¬ TagGives letter digit [] n := by
  rintro ⟨opts, ⟨-, -, h⟩, h1, -⟩
  rcases h with ⟨-, h⟩ | ⟨-, h⟩
  · exact h1 h.symm
  · cases n <;> simp at h

theorem ren_declared : Declared renW.U.isLetter renW.U.isDigit renW.E Ren where
  kind t t' h := by
    cases h with
    | base h =>
      rcases pairs_cases h with ⟨rfl, rfl⟩ | ⟨rfl, rfl⟩ | ⟨rfl, rfl⟩ | ⟨rfl, rfl⟩ | ⟨rfl, rfl⟩ | ⟨rfl, rfl⟩ | ⟨rfl, rfl⟩ | ⟨rfl, rfl⟩
      · exact .int
      · exact .slice (.base (by decide))
      · exact .struct
      · exact .struct
      · exact .string
      · exact .map (.base (by decide)) (.base (by decide))
      · exact .iface
      · exact .slice (.base (by decide))
    | ptr h =>
      show KindAlike _ (univE _ _).kind (univE _ _).kind
      rw [univE_ptr, univE_ptr]
      exact .ptr h
  ptrName t t' h hp := by
    cases h with
    | base h =>
      have : ∀ x ∈ renPairs, isPtrK (univE renDefs x.1).kind = false := by decide +kernel
      have := this _ h
      obtain ⟨e, he⟩ := hp
      have he : (univE renDefs t).kind = .ptr e := he
      simp [he, isPtrK] at this
    | ptr h =>
      show (univE _ _).name = [] ↔ (univE _ _).name = []
      rw [univE_ptr, univE_ptr]
  decls t t' fs fs' h hf hf' := by
    unfold HasFields at hf hf'
    cases h with
    | base h =>
      rcases pairs_cases h with ⟨rfl, rfl⟩ | ⟨rfl, rfl⟩ | ⟨rfl, rfl⟩ | ⟨rfl, rfl⟩ | ⟨rfl, rfl⟩ | ⟨rfl, rfl⟩ | ⟨rfl, rfl⟩ | ⟨rfl, rfl⟩
      all_goals first | (cases hf; done) | skip
      · cases hf; cases hf'
        refine ⟨rfl, ?_, ?_, ?_, ?_, ?_⟩
        all_goals
          intro i f f' h1 h2
          match i, h1, h2 with
          | 0, h1, h2 => ?_
        all_goals cases h1; cases h2
        all_goals first | rfl | exact fun _ => rfl | exact .base (by decide)
      · cases hf; cases hf'
        refine ⟨rfl, ?_, ?_, ?_, ?_, ?_⟩
        all_goals
          intro i f f' h1 h2
          match i, h1, h2 with
          | 0, h1, h2 => ?_
          | 1, h1, h2 => ?_
          | 2, h1, h2 => ?_
        all_goals cases h1; cases h2
        all_goals first | rfl | exact fun _ => rfl | exact .base (by decide) | exact .ptr (t := 0) (t' := 2) (.base (by decide)) | skip
        intro hn
        exact (hn 8 false ⟨⟨.inl rfl, by decide⟩, rfl, no_tag, ⟨_, rfl⟩, .inl ⟨rfl, rfl⟩⟩).elim
    | ptr h =>
      have hf : (univE _ _).kind = _ := hf
      rw [univE_ptr] at hf
      cases hf

theorem ren_strOf {R : TId → TId → Prop} {v v' : Val} (h : SameVal R v v') : strOf v' = strOf v := by cases h <;> rfl

/-- The hypotheses of `C81_declared`. -/
theorem ren_renaming : Renaming renW (univM shopMeth) Ren :=
  C81_declared ren_declared (fun t t' _ _ => sharing_one (R := Ren) (fun _ _ _ => ren_one) (fun _ _ _ => ren_one') t t') (fun _ _ h => (ren_specials h).1)
    (fun _ _ => ren_methods) (fun _ _ h => (ren_specials h).2) (fun _ _ h => .ptr h) (by
      intro path m ctx t t' v v' dst h hv
      show shopMeth m ctx t' (strOf v') dst = shopMeth m ctx t (strOf v) dst
      rw [ren_strOf hv]
      cases m <;> rfl)

theorem ren_ready (cells : List (Addr × Cell)) : Ready renW (renH cells) (univM shopMeth) := univ_ready ren_ok shopMeth cells

theorem ren_std : StdText renW.E := by
  intro t s hs
  have h : ∀ t, (renW.E t).special = none := by
    intro t
    simp only [renW, univW, univE]
    split
    · rfl
    · rw [List.getD_eq_getElem?_getD]
      cases hg : renDefs[t / 2]? with
      | none => rfl
      | some d =>
        have : ∀ d ∈ renDefs, d.special = none := by decide +kernel
        exact this d (List.mem_of_getElem? hg)
  rw [h t] at hs; cases hs

theorem ren_writes (cells : List (Addr × Cell)) : WriteReady renW (renH cells) (univM shopMeth) :=
  ⟨ren_ready _, toyFmt_contract, by
    rintro path m ctx t w (rfl | rfl)
    · exact .inr <| .inr ⟨b! "7", fun dst => rfl⟩
    · exact .inr <| .inr ⟨b! "8", fun dst => rfl⟩, shop_honestM, fun _ _ => List.reverse_perm _, validText_iff⟩

theorem ren_faults (cells : List (Addr × Cell)) : FaultReady renW (renH cells) (univM shopMeth) :=
  ⟨ren_ready _, toyFmt_contract, shop_honestM, fun _ _ => List.reverse_perm _, validText_iff, ren_std⟩

/-- Two slices of an interface, holding a map of the one type and of the other. -/
def renCells : List (Addr × Cell) :=
  [(100, .slice 200 1), (150, .slice 220 1), (200, .eface (some (20, 300))), (220, .eface (some (22, 300))), (300, .hmap [(320, 400)]),
   (320, .str (b! "k")), (400, .int (.int 1)), (408, .slice 500 2), (432, .word 520), (500, .int (.int 5)), (508, .int (.int 6)), (520, .int (.int 7))]

def renMapV : Val := .map [(.str (b! "k"), .struct [.struct [.int (.int 1)], .slice [.int (.int 5), .int (.int 6)], .ptr (.int (.int 7))])]

theorem ren_vals : SameVal Ren (.slice [.iface 20 renMapV]) (.slice [.iface 22 renMapV]) := by
  have one : ∀ {P : Val → Val → Prop} {a b : Val}, P a b → ∀ (i : Nat) x y, [a][i]? = some x → [b][i]? = some y → P x y := by
    intro P a b h i x y h1 h2
    match i, h1, h2 with
    | 0, h1, h2 => cases h1; cases h2; exact h
  have two : ∀ {P : Val → Val → Prop} {a b : Val} {l l' : List Val}, P a b → (∀ (i : Nat) x y, l[i]? = some x → l'[i]? = some y → P x y) →
      ∀ (i : Nat) x y, (a :: l)[i]? = some x → (b :: l')[i]? = some y → P x y := by
    intro P a b l l' h hl i x y h1 h2
    match i, h1, h2 with
    | 0, h1, h2 => cases h1; cases h2; exact h
    | i + 1, h1, h2 => exact hl i x y h1 h2
  refine .slice rfl (one (.iface (.base (by decide)) (.map rfl ?_ ?_)))
  · intro i x y h1 h2
    match i, h1, h2 with
    | 0, h1, h2 => cases h1; cases h2; exact .str
  · intro i x y h1 h2
    match i, h1, h2 with
    | 0, h1, h2 =>
      cases h1; cases h2
      exact .struct rfl (two (.struct rfl (one .int)) (two (.slice rfl (two .int (one .int))) (one (.ptr .int))))

theorem ren_text : marshalOpts renW (renH renCells) 9 (some (26, 100)) [] = .ret (some (b! "[{\"k\":{\"id\":1,\"a\":[5,6],\"p\":\"7\"}}]")) none := by
  decide +kernel

/-- The hypotheses of `C81_calls`, and so of `C81_text` and `C81_iff`. -/
example (dst : Bytes) : marshalOpts renW (renH renCells) 9 (some (26, 150)) [] = .ret (some (b! "[{\"k\":{\"id\":1,\"a\":[5,6],\"p\":\"7\"}}]")) none ∧
    appendOpts renW (renH renCells) 9 dst (some (26, 150)) [] = .ret (some (dst ++ b! "[{\"k\":{\"id\":1,\"a\":[5,6],\"p\":\"7\"}}]")) none :=
  (C81_calls (opts := []) (n := 9) (n' := 9) (ren_faults renCells) (ren_writes renCells) shop_pathFree ren_renaming (.base (t := 26) (t' := 26) (by decide)) ren_vals
    (w := 100) (w' := 150) (univ_repr 9 (by decide +kernel)) (univ_repr 9 (by decide +kernel)) (timesB_fine (n := 6) (by decide +kernel))
    (timesB_fine (n := 6) (by decide +kernel)) rfl (by rw [ren_text]; intro h; cases h) (by decide +kernel) dst).2 rfl (told_small (by
      intro t' v' h kvs hk
      have := allParts_within (E := renW.E) (P := fun _ v => match v with | .map kvs => kvs.length ≤ 1 | .smap kvs => kvs.length ≤ 1 | _ => true) (n := 7)
        (by decide +kernel) h
      rcases hk with rfl | rfl <;> simpa using this)) _ ren_text

end Jettison.Props
