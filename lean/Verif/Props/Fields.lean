import Verif.Proofs.Recorded
import Verif.Proofs.SortEx
import Verif.Props.Tags

/-! # Properties of struct field selection -/

namespace Jettison.Props
open Jettison Jettison.Model Jettison.Spec Jettison.Proofs

variable {E : Env} {U : UnicodeTab} {grow : Grow} {sort : SortAlg} {fuel : Nat} {t : TId} {l : List Fld}

/-- C17: the names of the chosen fields are pairwise different. -/
theorem C17_names_distinct (hsort : SortOk sort) (h : structFields E U grow sort fuel t = some l) :
    l.Pairwise (fun a b => a.name ≠ b.name) := by
  obtain ⟨_, _, _, _, h1, _⟩ := structFields_sel hsort h
  exact h1

/-- C19: the chosen fields are in declaration order: strictly increasing in the
lexicographic order of their index paths. -/
theorem C19_declaration_order (hsort : SortOk sort) (h : structFields E U grow sort fuel t = some l) :
    l.Pairwise (fun a b => PathLt a.index b.index) := by
  obtain ⟨_, _, _, _, _, h1⟩ := structFields_sel hsort h
  exact h1

/-- C18: a field that wins over all other reachable fields of its name is chosen. -/
theorem C18_visible_chosen (hU : TablesOk U.isLetter U.isDigit) (hsort : SortOk sort)
    (h : structFields E U grow sort fuel t = some l) {path : List Nat} {name : Bytes} {tagged : Bool}
    (hv : Visible U.isLetter U.isDigit E t path name tagged) :
    ∃ f ∈ l, f.index = path ∧ f.name = name ∧ f.tag = tagged := by
  obtain ⟨log, flds, hb, hm, _, _⟩ := structFields_sel hsort h
  obtain ⟨f, hf, hr⟩ := visible_selected hU hb hv
  exact ⟨f, (hm f).mpr hf, hr⟩

/-- C18: a chosen field is a reachable one, and wins over every reachable field of
its name that is another declaration; of its own declaration it is the first
occurrence. -/
theorem C18_chosen_wins (hU : TablesOk U.isLetter U.isDigit) (hsort : SortOk sort)
    (h : structFields E U grow sort fuel t = some l) {f : Fld} (hf : f ∈ l) :
    ∃ u i sf r, Promoted U.isLetter U.isDigit E t f.index u i sf f.name f.tag r ∧
      ∀ path' u' i' sf' tg' r', Promoted U.isLetter U.isDigit E t path' u' i' sf' f.name tg' r' →
        ((u', i') ≠ (u, i) → Wins f.index f.tag path' tg') ∧
        ((u', i') = (u, i) → path' = f.index ∨ f.index.length < path'.length ∨
          (f.index.length = path'.length ∧ PathLt f.index path')) := by
  obtain ⟨log, flds, hb, hm, _, _⟩ := structFields_sel hsort h
  obtain ⟨s, _, i, sf, r, _, hp, hw⟩ := selected_wins hU hb ((hm f).mp hf)
  exact ⟨s.typ, i, sf, r, hp, hw⟩

/-- C18: the chosen fields are exactly the visible ones, unless a struct that embeds
further structs is itself embedded twice at its least depth (the code, like
encoding/json, does not carry the multiplicity further down: `C18_shared_wrong`). -/
theorem C18_chosen_iff_visible_partial (hU : TablesOk U.isLetter U.isDigit) (hsort : SortOk sort)
    (hns : NoSharedEmbedding U.isLetter U.isDigit E t) (h : structFields E U grow sort fuel t = some l)
    (path : List Nat) (name : Bytes) (tagged : Bool) :
    (∃ f ∈ l, f.index = path ∧ f.name = name ∧ f.tag = tagged) ↔
      Visible U.isLetter U.isDigit E t path name tagged := by
  constructor
  · rintro ⟨f, hf, rfl, rfl, rfl⟩
    obtain ⟨log, flds, hb, hm, _, _⟩ := structFields_sel hsort h
    exact selected_visible hU hb hns ((hm f).mp hf)
  · exact C18_visible_chosen hU hsort h

/-- C49: the exact rule of the code, for every type graph. Each struct type counts
once, at its first path (shortest, then first declared). A field of it is chosen iff
its struct is not embedded twice by structs at their first paths one level up, and it
wins over every other such field of its name. -/
theorem C49_exact_rule (hU : TablesOk U.isLetter U.isDigit) (hsort : SortOk sort)
    (h : structFields E U grow sort fuel t = some l) (path : List Nat) (name : Bytes) (tagged : Bool) :
    (∃ f ∈ l, f.index = path ∧ f.name = name ∧ f.tag = tagged) ↔
      ∃ p u i sf r, path = p ++ [i] ∧ Promoted U.isLetter U.isDigit E t path u i sf name tagged r ∧
        Canonical U.isLetter U.isDigit E t p u ∧ ¬ PushedTwice U.isLetter U.isDigit E t p.length u ∧
        ∀ p' u' i' sf' tg' r', Promoted U.isLetter U.isDigit E t (p' ++ [i']) u' i' sf' name tg' r' →
          Canonical U.isLetter U.isDigit E t p' u' → p' ++ [i'] ≠ path → Wins path tagged (p' ++ [i']) tg' := by
  obtain ⟨log, flds, hb, hm, _, _⟩ := structFields_sel hsort h
  rw [← selected_exact hU hb]
  constructor
  · rintro ⟨f, hf, hr⟩; exact ⟨f, (hm f).mp hf, hr⟩
  · rintro ⟨f, hf, hr⟩; exact ⟨f, (hm f).mpr hf, hr⟩

/-- C33 (struct part): collecting the fields of a struct ends, whatever the
embedding, recursive embedding included: any finite set of types closed under
promotion bounds the number of rounds. -/
theorem C33_fields_terminate (hU : TablesOk U.isLetter U.isDigit) (E : Env) (grow : Grow) (sort : SortAlg) (t : TId)
    (T : List TId) (hT : ClosedUnder U.isLetter U.isDigit E t T) (fuel : Nat) (hf : T.length + 2 ≤ fuel) :
    ∃ l, structFields E U grow sort fuel t = some l := by
  obtain ⟨flds, hb⟩ := bfs_terminates hU hT grow fuel 0 [] _ _ (init_inv E U t) (by simpa using hf)
  unfold structFields
  rw [hb]
  exact ⟨_, rfl⟩

/-- C41: what the tag of a chosen field decides. The field is not tagged "-"; its
options are exactly the comma separated items of its tag; `string` counts for basic
types only. -/
theorem C41_field_options (hU : TablesOk U.isLetter U.isDigit) (hsort : SortOk sort)
    (h : structFields E U grow sort fuel t = some l) {f : Fld} (hf : f ∈ l) :
    ∃ u i sf r nm opts, Promoted U.isLetter U.isDigit E t f.index u i sf f.name f.tag r ∧ sf.tag ≠ b! "-" ∧
      TagReading sf.tag nm opts ∧ (f.omitEmpty = true ↔ b! "omitempty" ∈ opts) ∧ (f.omitNil = true ↔ b! "omitnil" ∈ opts) ∧
      (f.quoted = true ↔ b! "string" ∈ opts ∧ isBasicK (E f.typ).kind = true) ∧ f.typ = scanTyp E sf := by
  obtain ⟨log, flds, hb, hm, _, _⟩ := structFields_sel hsort h
  have hfm := selected_mem ((hm f).mp hf)
  rw [hb.flds] at hfm
  obtain ⟨s, hs, i, sf, nm, tg, a1, a2, rfl⟩ := logFlds_mem.mp hfm
  obtain ⟨q, hq⟩ := (pathN_iff hU).mp (hb.path s hs)
  have hmem := (cls_leaf hU).mp a2
  refine ⟨s.typ, i, sf, q ++ [(sf.offset, false)], (parseTag sf.tag).1, (parseTag sf.tag).2, ?_, hmem.1.2,
    parseTag_reading sf.tag, ?_, ?_, ?_, ?_⟩
  · rw [(mkFld_index ..).1, (mkFld_index ..).2.1, (mkFld_index ..).2.2]
    exact ⟨⟨s.index, q, hq, rfl, rfl⟩, nodeFields_get.mp a1, hmem⟩
  · simp only [mkFld, tagContains_iff]
  · simp only [mkFld, tagContains_iff]
  · simp only [mkFld, Bool.and_eq_true, tagContains_iff]
  · simp only [mkFld]

/-- C22 (field selection part): the recorded offsets and indirections lead to the
very field that was chosen, provided that the steps recorded for its struct are the
struct's own (`RoutesApart`, which is needed: `C71_type_iff`). With the growth of the Go
runtime (1, 2, 4, 8, ...) this fails only if a struct with 3, 5, 6, 7, 9, ... structs
above it embeds two others (`C71_no_fork`): `C22_fork_wrong`. -/
theorem C22_route_partial (hU : TablesOk U.isLetter U.isDigit) (hsort : SortOk sort)
    (hsafe : RoutesApart U.isLetter U.isDigit grow E t) (h : structFields E U grow sort fuel t = some l)
    {f : Fld} (hf : f ∈ l) :
    ∃ u i sf, Promoted U.isLetter U.isDigit E t f.index u i sf f.name f.tag (f.embedSeq.map fun s => (s.offset, s.indir)) := by
  obtain ⟨u, i, sf, hp, -⟩ := structFields_route hU hsafe hsort h f hf
  exact ⟨u, i, sf, hp⟩

/-! ## Concrete type graphs -/

/-- The growth of the Go runtime for these sizes: 1, 2, 4, 8, ... -/
def growDouble : Grow := fun c => max 1 (2 * c)

def fld (name : Bytes) (typ offset : Nat) (tag : Bytes := []) : FieldDef := ⟨name, true, false, tag, typ, offset⟩
def emb (name : Bytes) (typ offset : Nat) (tag : Bytes := []) : FieldDef := ⟨name, true, true, tag, typ, offset⟩

theorem asciiOk : TablesOk asciiTab.isLetter asciiTab.isDigit where
  letter_ascii c _ := by simp [asciiTab]
  digit_ascii c _ := by simp [asciiTab]
  repl := by decide

/-- `type T struct { A; *B; X int }`, `type A struct { X, Y, Z int }`,
`type B struct { *T; Y int "y"; Z int "Z,omitempty" }`. -/
def exEnv : Env
  | 0 => { kind := .struct [emb (b! "A") 1 0, emb (b! "B") 2 24, fld (b! "X") 4 32] }
  | 1 => { kind := .struct [fld (b! "X") 4 0, fld (b! "Y") 4 8, fld (b! "Z") 4 16] }
  | 2 => { kind := .ptr 3 }
  | 3 => { kind := .struct [emb (b! "T") 5 0, fld (b! "Y") 4 8 (b! "y"), fld (b! "Z") 4 16 (b! "Z,omitempty")] }
  | 5 => { kind := .ptr 0 }
  | _ => { kind := .int .int, name := b! "int" }

example : (structFields exEnv asciiTab growDouble isort 5 0).map (·.map fun f => (f.name, f.index, f.embedSeq.map fun s => (s.offset, s.indir))) =
    some [(b! "Y", [0, 1], [(0, false), (8, false)]), (b! "y", [1, 1], [(24, true), (8, false)]),
      (b! "Z", [1, 2], [(24, true), (16, false)]), (b! "X", [2], [(32, false)])] := by decide +kernel

theorem exEnv_embeds : embedsFrom exEnv asciiTab 0 (nodeFields exEnv 0) = [(0, 1), (1, 3)] ∧
    embedsFrom exEnv asciiTab 0 (nodeFields exEnv 1) = [] ∧
    embedsFrom exEnv asciiTab 0 (nodeFields exEnv 3) = [(0, 0)] := by decide +kernel

theorem exEnv_paths {n : Node} (h : PathN exEnv asciiTab 0 n) :
    (n.1 = 0 ∧ (n.2 = [] ∨ 2 ≤ n.2.length)) ∨ (n.1 = 1 ∧ (n.2 = [0] ∨ 2 ≤ n.2.length)) ∨
      (n.1 = 3 ∧ (n.2 = [1] ∨ 2 ≤ n.2.length)) := by
  obtain ⟨h0, h1, h3⟩ := exEnv_embeds
  induction h with
  | root => exact Or.inl ⟨rfl, Or.inl rfl⟩
  | @step n x hn hx ih =>
    unfold pushOf at hx
    rcases ih with ⟨h, hk⟩ | ⟨h, hk⟩ | ⟨h, hk⟩
    · rw [h, h0] at hx
      simp only [List.map_cons, List.map_nil, List.mem_cons, List.not_mem_nil, or_false] at hx
      rcases hx with rfl | rfl
      · refine Or.inr (Or.inl ⟨rfl, ?_⟩)
        rcases hk with hk | hk
        · left; simp [hk]
        · right; simp; omega
      · refine Or.inr (Or.inr ⟨rfl, ?_⟩)
        rcases hk with hk | hk
        · left; simp [hk]
        · right; simp; omega
    · rw [h, h1] at hx; simp at hx
    · rw [h, h3] at hx
      simp only [List.map_cons, List.map_nil, List.mem_cons, List.not_mem_nil, or_false] at hx
      subst hx
      refine Or.inl ⟨rfl, Or.inr ?_⟩
      rcases hk with hk | hk <;> simp [hk]; omega

theorem exEnv_reach1 : PathN exEnv asciiTab 0 (1, [0]) ∧ PathN exEnv asciiTab 0 (3, [1]) := by
  constructor <;> refine .step .root ?_ <;> decide +kernel

/-- Paths of at most the least length are the first ones. -/
theorem exEnv_short {u : TId} {p : List Nat} (h : PathN exEnv asciiTab 0 (u, p))
    (hs : ∀ p', PathN exEnv asciiTab 0 (u, p') → p.length ≤ p'.length) :
    (u = 0 ∧ p = []) ∨ (u = 1 ∧ p = [0]) ∨ (u = 3 ∧ p = [1]) := by
  rcases exEnv_paths h with ⟨h1, h2⟩ | ⟨h1, h2⟩ | ⟨h1, h2⟩ <;> simp only at h1 h2 <;> subst h1
  · refine Or.inl ⟨rfl, ?_⟩
    have := hs [] .root
    rcases h2 with h2 | h2
    · exact h2
    · simp at this; exact this
  · refine Or.inr (Or.inl ⟨rfl, ?_⟩)
    have := hs [0] exEnv_reach1.1
    rcases h2 with h2 | h2
    · exact h2
    · simp at this; omega
  · refine Or.inr (Or.inr ⟨rfl, ?_⟩)
    have := hs [1] exEnv_reach1.2
    rcases h2 with h2 | h2
    · exact h2
    · simp at this; omega

/-- The hypotheses of `C18_chosen_iff_visible_partial`, `C22_route_partial` and
`C33_fields_terminate` hold of a recursive type with embedded pointers. -/
example : NoSharedEmbedding asciiTab.isLetter asciiTab.isDigit exEnv 0 := by
  intro u p p' q q' h1 h2 hne hs
  exfalso
  have e1 := exEnv_short ((pathN_iff asciiOk).mpr ⟨q, h1⟩) (fun r hr => by
    obtain ⟨s, hs'⟩ := (pathN_iff asciiOk).mp hr
    exact (hs r s hs').1)
  have e2 := exEnv_short ((pathN_iff asciiOk).mpr ⟨q', h2⟩) (fun r hr => by
    obtain ⟨s, hs'⟩ := (pathN_iff asciiOk).mp hr
    exact (hs r s hs').2)
  apply hne
  rcases e1 with ⟨rfl, rfl⟩ | ⟨rfl, rfl⟩ | ⟨rfl, rfl⟩ <;> rcases e2 with ⟨h, rfl⟩ | ⟨h, rfl⟩ | ⟨h, rfl⟩ <;> simp at h ⊢

example : NoSpareFork asciiTab.isLetter asciiTab.isDigit growDouble exEnv 0 := by
  intro p u ⟨⟨q, hq⟩, hs⟩ hlt
  exfalso
  have e1 := exEnv_short ((pathN_iff asciiOk).mpr ⟨q, hq⟩) (fun r hr => by
    obtain ⟨s, hs'⟩ := (pathN_iff asciiOk).mp hr
    rcases hs r s hs' with h | h | h
    · rw [h]; exact Nat.le_refl _
    · omega
    · omega)
  revert hlt
  rcases e1 with ⟨-, rfl⟩ | ⟨-, rfl⟩ | ⟨-, rfl⟩ <;> decide

example : ClosedUnder asciiTab.isLetter asciiTab.isDigit exEnv 0 [0, 1, 3] := by
  refine ⟨by simp, ?_⟩
  intro u hu fs sf v ptr hf hs hp
  rw [List.mem_iff_getElem?] at hs
  obtain ⟨i, hi⟩ := hs
  have hm : (v, [i]) ∈ pushOf exEnv asciiTab (u, []) := by
    rw [pushOf_mem]
    exact ⟨i, sf, ptr, nodeFields_get.mpr ⟨fs, hf, hi⟩, (cls_embed asciiOk).mpr hp, rfl⟩
  obtain ⟨h0, h1, h3⟩ := exEnv_embeds
  unfold pushOf at hm
  simp only [List.mem_cons, List.not_mem_nil, or_false] at hu
  rcases hu with rfl | rfl | rfl
  · rw [h0] at hm; simp at hm; rcases hm with ⟨rfl, -⟩ | ⟨rfl, -⟩ <;> simp
  · rw [h1] at hm; simp at hm
  · rw [h3] at hm; simp at hm; simp [hm.1]

/-! ## Where the code departs from Go's rule -/

/-- `type T struct { A; B }`, `type A struct { C }`, `type B struct { C }`,
`type C struct { D }`, `type D struct { X int }`. -/
def diamondEnv : Env
  | 0 => { kind := .struct [emb (b! "A") 1 0, emb (b! "B") 2 8] }
  | 1 => { kind := .struct [emb (b! "C") 3 0] }
  | 2 => { kind := .struct [emb (b! "C") 3 0] }
  | 3 => { kind := .struct [emb (b! "D") 4 0] }
  | 4 => { kind := .struct [fld (b! "X") 5 0] }
  | _ => { kind := .int .int, name := b! "int" }

/-- C18 fails when a struct that embeds another one is embedded twice: field X below
is reachable by two paths of the same length, so Go's rule hides it, yet it is chosen. -/
theorem C18_shared_wrong : ∃ l f, structFields diamondEnv asciiTab growDouble isort 7 0 = some l ∧ f ∈ l ∧ f.name = b! "X" ∧
    ¬ Visible asciiTab.isLetter asciiTab.isDigit diamondEnv 0 f.index f.name f.tag := by
  refine ⟨[⟨5, b! "X", false, [0, 0, 0, 0], false, false, false, [⟨0, false⟩, ⟨0, false⟩, ⟨0, false⟩, ⟨0, false⟩]⟩], _,
    by decide +kernel, List.mem_cons_self, rfl, ?_⟩
  rintro ⟨-, hw⟩
  have hr : PathN diamondEnv asciiTab 0 (4, [1, 0, 0]) := by
    refine .step (n := (3, [1, 0])) (.step (n := (2, [1])) (.step .root ?_) ?_) ?_ <;> decide +kernel
  obtain ⟨q, hq⟩ := (pathN_iff asciiOk).mp hr
  have hp : Promoted asciiTab.isLetter asciiTab.isDigit diamondEnv 0 [1, 0, 0, 0] 4 0 (fld (b! "X") 5 0) (b! "X") false
      (q ++ [(0, false)]) :=
    ⟨⟨[1, 0, 0], q, hq, rfl, rfl⟩, ⟨[fld (b! "X") 5 0], rfl, rfl⟩, (cls_leaf asciiOk).mp (by decide +kernel)⟩
  have := hw _ _ _ _ _ _ hp (by decide)
  simp [Wins] at this

/-- `type T struct { A }`, `type A struct { B }`, `type B struct { C }`,
`type C struct { D; E }`, `type D struct { X int }`, `type E struct { Y int }`. -/
def forkEnv : Env
  | 0 => { kind := .struct [emb (b! "A") 1 0] }
  | 1 => { kind := .struct [emb (b! "B") 2 0] }
  | 2 => { kind := .struct [emb (b! "C") 3 0] }
  | 3 => { kind := .struct [emb (b! "D") 4 0, emb (b! "E") 5 8] }
  | 4 => { kind := .struct [fld (b! "X") 6 0] }
  | 5 => { kind := .struct [fld (b! "Y") 6 0] }
  | _ => { kind := .int .int, name := b! "int" }

/-- C22 fails for two structs embedded at depth three: the routes of D and E share an
array, E overwrites D's offset, and X is read where Y is. -/
theorem C22_fork_wrong : ∃ x y, structFields forkEnv asciiTab growDouble isort 8 0 = some [x, y] ∧
    x.name = b! "X" ∧ y.name = b! "Y" ∧ x.index ≠ y.index ∧ x.embedSeq = y.embedSeq ∧
    ∀ u i sf r, Promoted asciiTab.isLetter asciiTab.isDigit forkEnv 0 x.index u i sf x.name x.tag r →
      r ≠ x.embedSeq.map fun s => (s.offset, s.indir) := by
  refine ⟨⟨6, b! "X", false, [0, 0, 0, 0, 0], false, false, false, [⟨0, false⟩, ⟨0, false⟩, ⟨0, false⟩, ⟨8, false⟩, ⟨0, false⟩]⟩,
    ⟨6, b! "Y", false, [0, 0, 0, 1, 0], false, false, false, [⟨0, false⟩, ⟨0, false⟩, ⟨0, false⟩, ⟨8, false⟩, ⟨0, false⟩]⟩,
    by decide +kernel, rfl, rfl, by decide, rfl, ?_⟩
  rintro u i sf r ⟨⟨p, q, hr, hpath, rfl⟩, -, -⟩ he
  have hp : p = [0, 0, 0, 0] := (append_single_inj (p := [0, 0, 0, 0]) (i := 0) hpath).1.symm
  subst hp
  have step : ∀ {p u q} (fs : List FieldDef) (sf : FieldDef) (v : TId), Reaches asciiTab.isLetter asciiTab.isDigit forkEnv 0 p u q →
      (forkEnv u).kind = .struct fs → fs[0]? = some sf → cls forkEnv asciiTab sf = .embed v false →
      Reaches asciiTab.isLetter asciiTab.isDigit forkEnv 0 (p ++ [0]) v (q ++ [(sf.offset, false)]) :=
    fun fs sf v h1 h2 h3 h4 => .step h1 h2 h3 ((cls_embed asciiOk).mp h4)
  have r1 := step [emb (b! "A") 1 0] (emb (b! "A") 1 0) 1 .here rfl rfl (by decide +kernel)
  have r2 := step [emb (b! "B") 2 0] (emb (b! "B") 2 0) 2 r1 rfl rfl (by decide +kernel)
  have r3 := step [emb (b! "C") 3 0] (emb (b! "C") 3 0) 3 r2 rfl rfl (by decide +kernel)
  have r4 := step [emb (b! "D") 4 0, emb (b! "E") 5 8] (emb (b! "D") 4 0) 4 r3 rfl rfl (by decide +kernel)
  have hq := (reaches_functional asciiOk hr r4 rfl).2
  rw [hq] at he
  simp [emb] at he

end Jettison.Props
