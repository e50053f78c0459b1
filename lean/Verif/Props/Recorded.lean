import Verif.Proofs.Recorded
import Verif.Props.Fields

/-! # The routes of promoted fields, for every type graph -/

namespace Jettison.Props
open Jettison Jettison.Model Jettison.Spec Jettison.Proofs

variable {U : UnicodeTab} {E : Env} {t : TId} {grow : Grow} {sort : SortAlg} {fuel : Nat} {l : List Fld}

/-- C71: the route recorded for a chosen field, for every type graph and every growth
of slices. The last step is the offset of the field; every step before it is the step
of the last struct queued at that depth that shares the array, which are those whose
paths have the same beginning up to the entry at which the array was made. -/
theorem C71_route_exact (hU : TablesOk U.isLetter U.isDigit) (hsort : SortOk sort)
    (h : structFields E U grow sort fuel t = some l) {f : Fld} (hf : f ∈ l) :
    ∃ p u i sf q, f.index = p ++ [i] ∧ Canonical U.isLetter U.isDigit E t p u ∧
      Promoted U.isLetter U.isDigit E t f.index u i sf f.name f.tag (q ++ [(sf.offset, false)]) ∧
      ∃ rec, (f.embedSeq.map fun s => (s.offset, s.indir)) = rec ++ [(sf.offset, false)] ∧ rec.length = p.length ∧
        ∀ j s, j < p.length → (rec[j]? = some s ↔ RecordedStep U.isLetter U.isDigit grow E t p j s) := by
  obtain ⟨p, u, i, sf, h1, h2, h3, h4, h5, h6, h7, -⟩ := structFields_recorded hU hsort h f hf
  obtain ⟨q, hq⟩ := h2.1
  exact ⟨p, u, i, sf, q, h1, h2, ⟨⟨p, q, hq, h1, rfl⟩, h3, h4⟩, recorded_split h5 h6 h7 hU⟩

/-- C71: the recorded route of a field is the true one exactly if each recorded step,
that of the last queued struct sharing the array, is the own step of its struct. -/
theorem C71_route_iff (hU : TablesOk U.isLetter U.isDigit) (hsort : SortOk sort)
    (h : structFields E U grow sort fuel t = some l) {f : Fld} (hf : f ∈ l) {p : List Nat} {i : Nat} (hi : f.index = p ++ [i]) :
    (∃ u i sf, Promoted U.isLetter U.isDigit E t f.index u i sf f.name f.tag (f.embedSeq.map fun s => (s.offset, s.indir))) ↔
      OwnRoute U.isLetter U.isDigit grow E t p := by
  obtain ⟨p', u, i', sf, q, h1, h2, h3, rec, h4, h5, h6⟩ := C71_route_exact hU hsort h hf
  rw [h1] at hi
  obtain ⟨rfl, rfl⟩ := append_single_inj hi
  obtain ⟨q', hq'⟩ := h2.1
  rw [← recorded_iff hU hq' h5 h6, h4]
  constructor
  · rintro ⟨u2, i2, sf2, ⟨p2, q2, hr2, hp2, he2⟩, -, -⟩
    rw [h1] at hp2
    obtain ⟨rfl, -⟩ := append_single_inj hp2
    obtain ⟨-, rfl⟩ := reaches_functional hU hq' hr2 rfl
    exact (List.append_inj' he2 rfl).1
  · rintro rfl
    exact ⟨u, i', sf, ⟨p', rec, hq', h1, rfl⟩, h3.decl, h3.member⟩

/-- C71: all members of a struct type are read at their places exactly if each of them
has its own route. -/
theorem C71_type_iff (hU : TablesOk U.isLetter U.isDigit) (hsort : SortOk sort) (h : structFields E U grow sort fuel t = some l) :
    (∀ f ∈ l, ∃ u i sf, Promoted U.isLetter U.isDigit E t f.index u i sf f.name f.tag (f.embedSeq.map fun s => (s.offset, s.indir))) ↔
      RoutesApart U.isLetter U.isDigit grow E t := by
  constructor
  · intro hall m p i hm hp
    obtain ⟨p', u, i', r, tagged, c1, c2, c3, c4, c5⟩ := hm
    obtain ⟨f, hf, f1, -, -⟩ := (C49_exact_rule hU hsort h m.path m.name tagged).mpr ⟨p', u, i', m.decl, r, c1, c2, c3, c4, c5⟩
    exact (C71_route_iff hU hsort h hf (by rw [f1]; exact hp)).mp (hall f hf)
  · intro hs f hf
    exact C22_route_partial hU hsort hs h hf

/-- C71: no struct embedding two others below arrays with spare room, no wrong route. -/
theorem C71_no_fork (hU : TablesOk U.isLetter U.isDigit) (hs : NoSpareFork U.isLetter U.isDigit grow E t) :
    RoutesApart U.isLetter U.isDigit grow E t := apart_of_noFork hU hs

/-- C71: a field is found at its place whenever all arrays on its way were made for
its own path, wherever else the type embeds structs. -/
theorem C71_own_arrays (hU : TablesOk U.isLetter U.isDigit) (hsort : SortOk sort)
    (h : structFields E U grow sort fuel t = some l) {f : Fld} (hf : f ∈ l)
    (hown : ∀ j, j + 1 < f.index.length → capSeq grow j ≤ j) :
    ∃ u i sf, Promoted U.isLetter U.isDigit E t f.index u i sf f.name f.tag (f.embedSeq.map fun s => (s.offset, s.indir)) := by
  obtain ⟨p, u, i, sf, q, h1, -⟩ := C71_route_exact hU hsort h hf
  refine (C71_route_iff hU hsort h hf h1).mpr ?_
  intro u q hq j m c s hj hmade hc
  have : m = j := madeAt_self hmade (hown j (by rw [h1]; simp; omega))
  subst this
  obtain ⟨⟨c1, c2, c3⟩, -⟩ := hc
  rw [List.take_of_length_le (by omega)] at c3
  rw [c3] at c1
  exact queued_step hU hq hj c1

/-- C71: with the growth of the Go runtime every field with at most three embedded
structs on its way is found at its place, for every type. `C22_fork_wrong` has four. -/
theorem C71_three_levels (hU : TablesOk U.isLetter U.isDigit) (hsort : SortOk sort)
    (h : structFields E U growDouble sort fuel t = some l) {f : Fld} (hf : f ∈ l) (hlen : f.index.length ≤ 4) :
    ∃ u i sf, Promoted U.isLetter U.isDigit E t f.index u i sf f.name f.tag (f.embedSeq.map fun s => (s.offset, s.indir)) := by
  refine C71_own_arrays hU hsort h hf ?_
  intro j hj
  have : j = 0 ∨ j = 1 ∨ j = 2 := by omega
  rcases this with rfl | rfl | rfl <;> decide

/-! ## Concrete type graphs -/

/-- In the fork the route of X has the step of E where that of D belongs: both paths
begin with the three steps up to the entry at which the array was made. -/
example : RecordedStep asciiTab.isLetter asciiTab.isDigit growDouble forkEnv 0 [0, 0, 0, 0] 3 (8, false) := by
  obtain ⟨l, hl, hx⟩ : ∃ l, structFields forkEnv asciiTab growDouble isort 8 0 = some l ∧
      (⟨6, b! "X", false, [0, 0, 0, 0, 0], false, false, false,
        [⟨0, false⟩, ⟨0, false⟩, ⟨0, false⟩, ⟨8, false⟩, ⟨0, false⟩]⟩ : Fld) ∈ l := by
    refine ⟨[_, ⟨6, b! "Y", false, [0, 0, 0, 1, 0], false, false, false, [⟨0, false⟩, ⟨0, false⟩, ⟨0, false⟩, ⟨8, false⟩, ⟨0, false⟩]⟩],
      by decide +kernel, List.mem_cons_self⟩
  obtain ⟨p, u, i, sf, q, h1, -, -, rec, h4, h5, h6⟩ := C71_route_exact asciiOk isort_ok hl hx
  obtain ⟨rfl, -⟩ := append_single_inj (p := [0, 0, 0, 0]) (i := 0) h1
  refine (h6 3 _ (by decide)).mp ?_
  match rec, h5 with
  | [a, b, c, d], _ =>
    simp at h4
    simp [← h4.2.2.2.1]

/-- The array of entry 3 is made at entry 2, that of entry 4 at entry 4. -/
example : MadeAt growDouble 3 2 ∧ MadeAt growDouble 4 4 ∧ MadeAt growDouble 7 4 := by
  refine ⟨⟨by omega, by decide, fun n h1 h2 => ?_⟩, ⟨by omega, by decide, fun n h1 h2 => by omega⟩, ⟨by omega, by decide, fun n h1 h2 => ?_⟩⟩
  · have : n = 3 := by omega
    subst this; decide
  · have : n = 5 ∨ n = 6 ∨ n = 7 := by omega
    rcases this with rfl | rfl | rfl <;> decide

/-- `type T struct { A }`, `type A struct { B }`, `type B struct { C }`,
`type C struct { Z int; D; E }`, `type D struct { X int }`, `type E struct { Y int }`:
the fork of `forkEnv`, and a field beside it. -/
def besideEnv : Env
  | 0 => { kind := .struct [emb (b! "A") 1 0] }
  | 1 => { kind := .struct [emb (b! "B") 2 0] }
  | 2 => { kind := .struct [emb (b! "C") 3 0] }
  | 3 => { kind := .struct [fld (b! "Z") 6 0, emb (b! "D") 4 8, emb (b! "E") 5 16] }
  | 4 => { kind := .struct [fld (b! "X") 6 0] }
  | 5 => { kind := .struct [fld (b! "Y") 6 0] }
  | _ => { kind := .int .int, name := b! "int" }

/-- Field Z has three structs on its way, so it is found at its place although the
type has a fork below. -/
example : ∃ l f, structFields besideEnv asciiTab growDouble isort 8 0 = some l ∧ f ∈ l ∧ f.name = b! "Z" ∧ f.index.length = 4 := by
  refine ⟨[⟨6, b! "Z", false, [0, 0, 0, 0], false, false, false, [⟨0, false⟩, ⟨0, false⟩, ⟨0, false⟩, ⟨0, false⟩]⟩,
    ⟨6, b! "X", false, [0, 0, 0, 1, 0], false, false, false, [⟨0, false⟩, ⟨0, false⟩, ⟨0, false⟩, ⟨16, false⟩, ⟨0, false⟩]⟩,
    ⟨6, b! "Y", false, [0, 0, 0, 2, 0], false, false, false, [⟨0, false⟩, ⟨0, false⟩, ⟨0, false⟩, ⟨16, false⟩, ⟨0, false⟩]⟩], _,
    by decide +kernel, List.mem_cons_self, rfl, rfl⟩

/-- As `forkEnv`, but D has no fields: `type D struct {}`. -/
def lastEnv : Env
  | 4 => { kind := .struct [] }
  | t => forkEnv t

/-- The only member then is Y, and it has its own route: the fork does no harm. -/
theorem last_apart : RoutesApart asciiTab.isLetter asciiTab.isDigit growDouble lastEnv 0 := by
  have hl : structFields lastEnv asciiTab growDouble isort 8 0 = some [⟨6, b! "Y", false, [0, 0, 0, 1, 0], false, false, false,
      [⟨0, false⟩, ⟨0, false⟩, ⟨0, false⟩, ⟨8, false⟩, ⟨0, false⟩]⟩] := by decide +kernel
  refine (C71_type_iff asciiOk isort_ok hl).mp ?_
  intro f hf
  simp only [List.mem_singleton] at hf
  subst hf
  have step : ∀ {p u q} (i : Nat) (fs : List FieldDef) (sf : FieldDef) (v : TId), Reaches asciiTab.isLetter asciiTab.isDigit lastEnv 0 p u q →
      (lastEnv u).kind = .struct fs → fs[i]? = some sf → cls lastEnv asciiTab sf = .embed v false →
      Reaches asciiTab.isLetter asciiTab.isDigit lastEnv 0 (p ++ [i]) v (q ++ [(sf.offset, false)]) :=
    fun i fs sf v h1 h2 h3 h4 => .step h1 h2 h3 ((cls_embed asciiOk).mp h4)
  have r1 := step 0 [emb (b! "A") 1 0] (emb (b! "A") 1 0) 1 .here rfl rfl (by decide +kernel)
  have r2 := step 0 [emb (b! "B") 2 0] (emb (b! "B") 2 0) 2 r1 rfl rfl (by decide +kernel)
  have r3 := step 0 [emb (b! "C") 3 0] (emb (b! "C") 3 0) 3 r2 rfl rfl (by decide +kernel)
  have r4 := step 1 [emb (b! "D") 4 0, emb (b! "E") 5 8] (emb (b! "E") 5 8) 5 r3 rfl rfl (by decide +kernel)
  exact ⟨5, 0, fld (b! "Y") 6 0, ⟨_, _, r4, rfl, rfl⟩, ⟨[fld (b! "Y") 6 0], rfl, rfl⟩, (cls_leaf asciiOk).mp (by decide +kernel)⟩

end Jettison.Props
