import Verif.Proofs.Judged
import Verif.Proofs.Lossless
import Verif.Spec.Shown

/-! # Values that show the same are encoded the same -/

namespace Jettison.Proofs
open Jettison Jettison.Spec Jettison.Model Jettison.Props

variable {W : World} {H H' : Heap} {M : MethV} {o : EncOpts} {t : TId} {ca : Bool} {v v' : Val}

/-! ## Loops over related lists -/

theorem visit_paired {α : Type} {P : α → α → Prop} {l l' : List α} (h : l.length = l'.length)
    (hp : ∀ (i : Nat) x x', l[i]? = some x → l'[i]? = some x' → P x x') (path : Path) : Paired P (W.visit path l) (W.visit path l') := by
  simp only [World.visit, h]
  generalize W.order path l'.length = is
  induction is with
  | nil => exact .nil
  | cons i is ih =>
    simp only [List.filterMap_cons]
    cases hx : l[i]? with
    | none =>
      have : l'[i]? = none := by rw [List.getElem?_eq_none_iff] at hx ⊢; omega
      simp only [this]; exact ih
    | some x =>
      obtain ⟨x', hx'⟩ := getElem?_len h hx
      simp only [hx']
      exact .cons (hp i x x' hx hx') ih

theorem unsorted_paired {α : Type} {kf vf : Nat → α → Bytes → Res} {l l' : List α}
    (h : Paired (fun a a' => (∀ n dst, kf n a dst = kf n a' dst) ∧ ∀ n dst, vf n a dst = vf n a' dst) l l') :
    ∀ n dst, unsortedLoop kf vf n l dst = unsortedLoop kf vf n l' dst := by
  induction h with
  | nil => intro n dst; rfl
  | cons hp _ ih =>
    intro n dst
    simp only [unsortedLoop, hp.1, hp.2, ih]

theorem sorted_paired {α : Type} {kf vf : Nat → α → Bytes → Res} {l l' : List α}
    (h : Paired (fun a a' => (∀ n dst, kf n a dst = kf n a' dst) ∧ ∀ n dst, vf n a dst = vf n a' dst) l l') :
    ∀ n buf mel, sortedLoop kf vf n l buf mel = sortedLoop kf vf n l' buf mel := by
  induction h with
  | nil => intro n buf mel; rfl
  | cons hp _ ih =>
    intro n buf mel
    simp only [sortedLoop, hp.1, hp.2, ih]

theorem entries_paired {α : Type} {kf vf : Nat → α → Bytes → Res} {l l' : List α}
    (h : Paired (fun a a' => (∀ n dst, kf n a dst = kf n a' dst) ∧ ∀ n dst, vf n a dst = vf n a' dst) l l') (dst : Bytes) :
    encodeEntries W o kf vf l dst = encodeEntries W o kf vf l' dst := by
  simp only [encodeEntries, encodeSorted, unsorted_paired h, sorted_paired h]

theorem array_paired {rec : RecV} {path : Path} {ins : Instr} : ∀ {vs vs' : List Val} (i : Nat) (dst : Bytes),
    Paired (fun x x' => ∀ path dst, rec path ins x dst = rec path ins x' dst) vs vs' →
    arrayLoopV rec path ins i vs dst = arrayLoopV rec path ins i vs' dst := by
  intro vs vs' i dst h
  induction h generalizing i dst with
  | nil => rfl
  | cons hp _ ih => simp only [arrayLoopV, hp, ih]

theorem struct_paired {rec : RecV} {path : Path} : ∀ (fs : List FInstr) (i : Nat) (first : Bool) (dst : Bytes),
    (∀ f ∈ fs, (fieldV o f v = some none ∧ fieldV o f v' = some none) ∨ ∃ x x', fieldV o f v = some (some x) ∧
      fieldV o f v' = some (some x') ∧ ∀ path dst, rec path f.instr x dst = rec path f.instr x' dst) →
    structLoopV o rec path v i fs first dst = structLoopV o rec path v' i fs first dst
  | [], _, _, _, _ => rfl
  | f :: fs, i, first, dst, h => by
    have ih := fun i first dst => struct_paired (path := path) fs i first dst fun g hg => h g (by simp [hg])
    rcases h f (by simp) with ⟨h1, h2⟩ | ⟨x, x', h1, h2, h3⟩
    · simp only [structLoopV, h1, h2, ih]
    · simp only [structLoopV, h1, h2, h3, ih]

/-! ## Values -/

theorem shows_int {k : IntK} {pt : TId → TId} (G : GoTypes W.E pt) (hk : (W.E t).kind = .int k) (h : Shows W o t ca v v') : v = v' := by
  cases h with
  | refl => rfl
  | smap hs => obtain ⟨_, h, _⟩ := G.syncMap _ hs; rw [hk] at h; cases h
  | struct _ hs => obtain ⟨fs, h⟩ := hs; have h : (W.E t).kind = .struct fs := h; rw [hk] at h; cases h
  | _ => simp_all

theorem shows_bytes {e : TId} {pt : TId → TId} (G : GoTypes W.E pt) (he : isByteElem W.E e = true) {vs vs' : List Val} (hl : vs.length = vs'.length)
    (h : ∀ (i : Nat) x x', vs[i]? = some x → vs'[i]? = some x' → Shows W o e ca x x') : vs = vs' := by
  apply List.ext_getElem? fun i => ?_
  cases hx : vs[i]? with
  | none => rw [List.getElem?_eq_none_iff] at hx; symm; rw [List.getElem?_eq_none_iff]; omega
  | some x =>
    obtain ⟨x', hx'⟩ := getElem?_len hl hx
    rw [hx', shows_int G (isByteElem_kind he) (h i x x' hx hx')]

/-- The statement for nested values: whatever memory holds them. -/
def ShowsAt (W : World) (H H' : Heap) (M : MethV) (o : EncOpts) (n : Nat) : Prop :=
  ∀ (t : TId) (ca q : Bool) (i : Instr) (v v' : Val), (∃ k, newInstruction W.E k t ca q = some i) → (∃ p, Repr W.E H.mem t p v) →
    (∃ p, Repr W.E H'.mem t p v') → Shows W o t ca v v' → ∀ path dst, runV W M o n path i v dst = runV W M o n path i v' dst

theorem appendJSONV_shows {n : Nat} (ih : ∀ m, m ≤ n → ShowsAt W H H' M o m) {d : TId} {y y' : Val} (h1 : ∃ p, Repr W.E H.mem d p y)
    (h2 : ∃ p, Repr W.E H'.mem d p y') (h : Shows W o d (isPtrK (W.E d).kind) y y') (path : Path) (dst : Bytes) :
    appendJSONV W (runV W M o n) path (.iface d y) dst = appendJSONV W (runV W M o n) path (.iface d y') dst := by
  simp only [appendJSONV]
  cases hi : instrFor W.E W.tfuel d with
  | none => rfl
  | some i =>
    simp only [instrFor] at hi
    split at hi
    · cases hi
    · next j hj =>
      simp only [Option.some.injEq] at hi
      split at hi
      · subst hi
        cases n with
        | zero => rfl
        | succ n => exact ih n (by omega) d _ _ j y y' ⟨_, hj⟩ h1 h2 h path dst
      · subst hi
        exact ih n (by omega) d _ _ j y y' ⟨_, hj⟩ h1 h2 h path dst

theorem runV_shows (R : Ready W H M) (R' : Ready W H' M) (n : Nat) : ShowsAt W H H' M o n := by
  induction n using Nat.strongRecOn with
  | ind n ihn =>
    cases n with
    | zero => intro t ca q i v v' _ _ _ _ path dst; rfl
    | succ n =>
      have ih : ∀ m, m ≤ n → ShowsAt W H H' M o m := fun m hm => ihn m (by omega)
      have ih' := ih n (Nat.le_refl _)
      intro t ca q i v v' ⟨k, hi⟩ ⟨p, hp⟩ ⟨p', hp'⟩ h path dst
      have G := R.types
      show execV W M o (runV W M o n) path i v dst = execV W M o (runV W M o n) path i v' dst
      cases h with
      | refl => rfl
      | ptr hb hk h =>
        obtain ⟨k', j, hj, rfl⟩ := byKind_ptr hb hk hi
        rcases repr_ptr G hk hp with ⟨h0, -⟩ | ⟨a, x, h0, -, -, hx⟩
        · cases h0
        · cases h0
          rcases repr_ptr G hk hp' with ⟨h0, -⟩ | ⟨a', x', h0, -, -, hx'⟩
          · cases h0
          · cases h0
            simp only [execV]
            exact ih' _ _ _ _ _ _ ⟨_, hj⟩ ⟨_, hx⟩ ⟨_, hx'⟩ h path dst
      | @slice _ _ e vs vs' hb hk hl h =>
        cases he : isByteElem W.E e with
        | true => rw [shows_bytes G he hl h]
        | false =>
          obtain ⟨k', j, hj, rfl⟩ := byKind_slice hb hk he hi
          rcases repr_slice G hk hp with ⟨h0, -⟩ | ⟨d, x, h0, -, -, hx⟩
          · cases h0
          · cases h0
            rcases repr_slice G hk hp' with ⟨h0, -⟩ | ⟨d', x', h0, -, -, hx'⟩
            · cases h0
            · cases h0
              simp only [execV, hl, encodeArrayV, Bool.false_and, Bool.false_eq_true, if_false]
              rw [array_paired 0 dst (paired_of_get hl fun i x x' h1 h2 => fun path dst =>
                ih' _ _ _ _ _ _ ⟨_, hj⟩ ⟨_, hx i x h1⟩ ⟨_, hx' i x' h2⟩ (h i x x' h1 h2) path dst)]
      | @array _ _ l e vs vs' hb hk hl h =>
        cases he : isByteElem W.E e with
        | true => rw [shows_bytes G he hl h]
        | false =>
          obtain ⟨k', j, hj, rfl⟩ := byKind_array hb hk hi
          obtain ⟨x, h0, -, hx⟩ := repr_array G hk hp
          cases h0
          obtain ⟨x', h0, -, hx'⟩ := repr_array G hk hp'
          cases h0
          simp only [execV, encodeArrayV, he, Bool.false_and, Bool.false_eq_true, if_false]
          exact array_paired 0 dst (paired_of_get hl fun i x x' h1 h2 => fun path dst =>
            ih' _ _ _ _ _ _ ⟨_, hj⟩ ⟨_, hx i x h1⟩ ⟨_, hx' i x' h2⟩ (h i x x' h1 h2) path dst)
      | @map _ _ kt e kvs kvs' hb hk hl hK h =>
        cases hkt : mapKeyOk W.E kt with
        | false => have := byKind_badMap hb hk hkt hi; subst this; rfl
        | true =>
          obtain ⟨k', ki, vi, hki, hvi, rfl⟩ := byKind_map hb hk hkt hi
          rcases repr_map G hk hp with ⟨h0, -⟩ | ⟨a, es, x, h0, -, -, -, hel, -, hx⟩
          · cases h0
          · cases h0
            rcases repr_map G hk hp' with ⟨h0, -⟩ | ⟨a', es', x', h0, -, -, -, hel', -, hx'⟩
            · cases h0
            · cases h0
              simp only [execV, hl]
              split
              · rfl
              · refine entries_paired (visit_paired hl (fun i x x' h1 h2 => ⟨fun n dst => by rw [hK i x x' h1 h2], fun n dst => ?_⟩) path) dst
                obtain ⟨y, hy⟩ := getElem?_len hel.symm h1
                obtain ⟨y', hy'⟩ := getElem?_len hel'.symm h2
                exact ih' _ _ _ _ _ _ ⟨_, hvi⟩ ⟨_, hx i y x hy h1⟩ ⟨_, hx' i y' x' hy' h2⟩ (h i x x' h1 h2) _ _
      | @iface _ _ _ d y y' hb hk h =>
        have := byKind_iface hb hk hi
        subst this
        obtain ⟨x, -, hx⟩ := repr_iface G hk hp
        obtain ⟨x', -, hx'⟩ := repr_iface G hk hp'
        rcases reprE_cases hx with h0 | ⟨_, _, h0, hy⟩
        · cases h0
        · cases h0
          rcases reprE_cases hx' with h0 | ⟨_, _, h0, hy'⟩
          · cases h0
          · cases h0
            simp only [execV]
            exact appendJSONV_shows ih hy hy' h path dst
      | @smap _ _ kvs kvs' hs hl hK hE h =>
        have : i = .goType .syncMap := by
          obtain ⟨k, rfl⟩ := byKind_pos hi
          simp only [newInstruction, newGoTypeInstr, hs] at hi
          simpa using hi.symm
        subst this
        obtain ⟨es, x, h0, -, hel, -, hx⟩ := repr_smap G hs hp
        cases h0
        obtain ⟨es', x', h0, -, hel', -, hx'⟩ := repr_smap G hs hp'
        cases h0
        simp only [execV, encodeSpecialV]
        refine entries_paired (visit_paired hl (fun i x x' h1 h2 => ⟨fun n dst => by rw [hK i x x' h1 h2], fun n dst => ?_⟩) path) dst
        rcases hE i x x' h1 h2 with h0 | ⟨d, y, y', e1, e2⟩
        · rw [h0]
        · obtain ⟨z, hz⟩ := getElem?_len hel.symm h1
          obtain ⟨z', hz'⟩ := getElem?_len hel'.symm h2
          have r1 := hx i z x hz h1
          have r2 := hx' i z' x' hz' h2
          rw [e1] at r1 ⊢
          rw [e2] at r2 ⊢
          rcases reprE_cases r1 with h0 | ⟨_, _, h0, hy⟩
          · cases h0
          · cases h0
            rcases reprE_cases r2 with h0 | ⟨_, _, h0, hy'⟩
            · cases h0
            · cases h0
              exact appendJSONV_shows ih hy hy' (h i x x' d _ _ h1 h2 e1 e2) _ _
      | struct hb hst hleft h =>
        have hst' := hst
        obtain ⟨fs, hk⟩ := hst
        have hk : (W.E t).kind = .struct fs := hk
        have := byKind_struct hb hk hi
        subst this
        simp only [execV]
        split
        · rfl
        · split
          · rfl
          · next flds hflds =>
            obtain ⟨fl, g, hfld, hmem, hbeh, hspec⟩ := struct_fields (o := o) R hst' hp hflds
            obtain ⟨fl', g', hfld', hmem', hbeh', hspec'⟩ := struct_fields (o := o) R' hst' hp' hflds
            rw [hfld] at hfld'
            subst hfld'
            refine struct_paired flds 0 true dst fun f hf => ?_
            have hfl : f.fld ∈ fl := by rw [← hfld]; exact List.mem_map_of_mem hf
            have hc := (hmem.2 (g f.fld)).mp (List.mem_map_of_mem hfl)
            have hc' := (hmem'.2 (g' f.fld)).mp (List.mem_map_of_mem hfl)
            have hg : g' f.fld = g f.fld := chosen_eq hst' hc' hc (by rw [(hbeh _ hfl).name, (hbeh' _ hfl).name])
            have s1 := hspec f hf
            have s2 := hspec' f hf
            rw [hg] at s2
            rcases s1 with ⟨a1, a2⟩ | ⟨x, a1, a2, a3, a4, q', k', a5⟩
            · rcases s2 with ⟨b1, -⟩ | ⟨x', -, b2, -⟩
              · exact .inl ⟨a1, b1⟩
              · exact absurd ((hleft _ hc).mp a2) b2
            · rcases s2 with ⟨-, b2⟩ | ⟨x', b1, b2, b3, b4, -⟩
              · exact absurd ((hleft _ hc).mpr b2) a2
              · exact .inr ⟨x, x', a1, b1, fun path dst => ih' _ _ _ _ _ _ ⟨_, a5⟩ a4 b4 (h _ x x' hc a2 a3 b3) path dst⟩

end Jettison.Proofs
