import Verif.Proofs.Ends

/-! # Encoding a finite value ends -/

namespace Jettison.Proofs
open Jettison Jettison.Model Jettison.Spec

variable {W : World} {S : List TId} {o : EncOpts}

theorem unsorted_ends {α : Type} {kf vf : Nat → α → Bytes → Res} : ∀ (l : List α) (n : Nat) (dst : Bytes),
    (∀ a ∈ l, ∀ n dst, kf n a dst ≠ .nofuel) → (∀ a ∈ l, ∀ n dst, vf n a dst ≠ .nofuel) → unsortedLoop kf vf n l dst ≠ .nofuel
  | [], _, _, _, _ => by simp [unsortedLoop]
  | a :: l, n, dst, hk, hv => by
    simp only [unsortedLoop]
    split
    · split
      · exact unsorted_ends l _ _ (fun a ha => hk a (by simp [ha])) (fun a ha => hv a (by simp [ha]))
      · exact hv a (by simp) _ _
    · exact hk a (by simp) _ _

theorem sorted_ends {α : Type} {kf vf : Nat → α → Bytes → Res} : ∀ (l : List α) (n : Nat) (dst : Bytes) (mel : List (Bytes × Bytes)),
    (∀ a ∈ l, ∀ n dst, kf n a dst ≠ .nofuel) → (∀ a ∈ l, ∀ n dst, vf n a dst ≠ .nofuel) → sortedLoop kf vf n l dst mel ≠ .stop .nofuel
  | [], _, _, _, _, _ => by simp [sortedLoop]
  | a :: l, n, dst, mel, hk, hv => by
    simp only [sortedLoop]
    split
    · split
      · simp
      · split
        · split
          · simp
          · exact sorted_ends l _ _ _ (fun a ha => hk a (by simp [ha])) (fun a ha => hv a (by simp [ha]))
        · intro h; exact hv a (by simp) _ _ (Coll.stop.inj h)
    · intro h; exact hk a (by simp) _ _ (Coll.stop.inj h)

theorem entries_ends {α : Type} {kf vf : Nat → α → Bytes → Res} {l : List α} {dst : Bytes}
    (hk : ∀ a ∈ l, ∀ n dst, kf n a dst ≠ .nofuel) (hv : ∀ a ∈ l, ∀ n dst, vf n a dst ≠ .nofuel) :
    encodeEntries W o kf vf l dst ≠ .nofuel := by
  simp only [encodeEntries]
  split
  · simp
  · split
    · exact unsorted_ends _ _ _ hk hv
    · simp only [encodeSorted]
      split
      · simp
      · simp
      · rename_i h
        intro he
        subst he
        exact sorted_ends _ _ _ _ hk hv h

theorem callMeth_ends {m : MethKind} {t : TId} {call : Option Ctx → Bytes → MethRes} {dst : Bytes} : callMeth W o m t call dst ≠ .nofuel := by
  cases m <;> simp only [callMeth]
  case json =>
    split
    · simp only [relayJSON]
      repeat' split
      all_goals simp
    · simp
    · simp
  all_goals split <;> simp

theorem marshaler_ends {M : MethV} {path : Path} {m : MethKind} {t : TId} {hp : Bool} {v : Val} {dst : Bytes} :
    encodeMarshalerV W M o path m t hp v dst ≠ .nofuel := by
  simp only [encodeMarshalerV]
  repeat' split
  all_goals first | exact callMeth_ends | simp

theorem follow_in : ∀ {path : List Nat} {v x : Val}, follow path v = some (some x) → ValIn S v → depthV x ≤ depthV v ∧ ValIn S x
  | [], v, x, h, hv => by
    simp only [follow, Option.some.injEq] at h
    subst h
    exact ⟨Nat.le_refl _, hv⟩
  | i :: is, .struct vs, x, h, hv => by
    simp only [ValIn, valInL_iff] at hv
    simp only [follow] at h
    split at h
    · cases h
    · rename_i y hy
      have hm := List.mem_of_getElem? hy
      have h1 := depthL_mem hm
      have h2 := hv _ hm
      simp only [ValIn] at h2
      obtain ⟨h3, h4⟩ := follow_in h h2
      simp only [depthV] at h1 ⊢
      exact ⟨by omega, h4⟩
    · rename_i y _ _ hy
      have hm := List.mem_of_getElem? hy
      have h1 := depthL_mem hm
      obtain ⟨h3, h4⟩ := follow_in h (hv _ hm)
      simp only [depthV]
      exact ⟨by omega, h4⟩
    · cases h

theorem route_in {path : List Nat} {v x : Val} (h : routeV v path = some (some x)) (hv : ValIn S v) : depthV x < depthV v ∧ ValIn S x := by
  simp only [routeV] at h
  split at h
  · rename_i vs hf
    obtain ⟨h1, h2⟩ := follow_in hf hv
    split at h
    · split at h
      · rename_i y hy
        simp only [Option.some.injEq] at h
        subst h
        have hm := List.mem_of_getElem? hy
        have h3 := depthL_mem hm
        simp only [ValIn, valInL_iff] at h2
        simp only [depthV] at h1
        exact ⟨by omega, h2 _ hm⟩
      · cases h
    · cases h
  · cases h
  · cases h

theorem fieldV_routes {f : FInstr} {v x : Val} (h : fieldV o f v = some (some x)) : routeV v f.fld.index = some (some x) := by
  simp only [fieldV] at h
  split at h
  · cases h
  · split at h
    · cases h
    · cases h
    · rename_i y hy
      split at h
      · cases h
      · cases h
      · split at h
        · cases h
        · cases h
        · cases h; exact hy

theorem structLoop_ends {rec : RecV} {path : Path} {v : Val} : ∀ (fs : List FInstr) (i : Nat) (first : Bool) (dst : Bytes),
    (∀ f ∈ fs, ∀ x, routeV v f.fld.index = some (some x) → ∀ p d, rec p f.instr x d ≠ .nofuel) →
    structLoopV o rec path v i fs first dst ≠ .nofuel
  | [], _, _, _, _ => by simp [structLoopV]
  | f :: fs, i, first, dst, h => by
    have ih := fun i first dst => structLoop_ends (rec := rec) (path := path) (v := v) fs i first dst fun g hg => h g (List.mem_cons_of_mem _ hg)
    simp only [structLoopV]
    split
    · simp
    · exact ih _ _ _
    · rename_i x hx
      have hr := h f List.mem_cons_self x (fieldV_routes hx)
      split
      · split
        · exact ih _ _ _
        · exact ih _ _ _
      · exact hr _ _

theorem arrayLoop_ends {rec : RecV} {path : Path} {ins : Instr} : ∀ (vs : List Val) (i : Nat) (dst : Bytes),
    (∀ v ∈ vs, ∀ p d, rec p ins v d ≠ .nofuel) → arrayLoopV rec path ins i vs dst ≠ .nofuel
  | [], _, _, _ => by simp [arrayLoopV]
  | v :: vs, i, dst, h => by
    simp only [arrayLoopV]
    split
    · exact arrayLoop_ends vs _ _ fun x hx => h x (List.mem_cons_of_mem _ hx)
    · exact h v List.mem_cons_self _ _

theorem array_ends {rec : RecV} {path : Path} {ins : Instr} {isba : Bool} {vs : List Val} {dst : Bytes}
    (h : ∀ v ∈ vs, ∀ p d, rec p ins v d ≠ .nofuel) : encodeArrayV o rec path ins isba vs dst ≠ .nofuel := by
  simp only [encodeArrayV]
  split
  · simp only [withRead]; split <;> simp
  · exact arrayLoop_ends _ _ _ h

/-- What the steps cost: the instruction's nesting, and for each level of the value the
nesting of any instruction. -/
def cost (W : World) (i : Instr) (v : Val) : Nat := depthV v * (3 * W.tfuel + 2) + depthI i

theorem cost_lt {i j : Instr} {v x : Val} (hx : depthV x < depthV v) (hj : depthI j ≤ 3 * W.tfuel + 1) : cost W j x < cost W i v := by
  simp only [cost]
  have : (depthV x + 1) * (3 * W.tfuel + 2) ≤ depthV v * (3 * W.tfuel + 2) := Nat.mul_le_mul_right _ hx
  rw [Nat.add_mul] at this
  omega

theorem cost_le {i j : Instr} {v x : Val} (hx : depthV x ≤ depthV v) (hj : depthI j < depthI i) : cost W j x < cost W i v := by
  simp only [cost]
  have : depthV x * (3 * W.tfuel + 2) ≤ depthV v * (3 * W.tfuel + 2) := Nat.mul_le_mul_right _ hx
  omega

variable {rk : TId → Nat}

theorem appendJSONV_ends (fit : Fit W S rk) {rec : RecV} {path : Path} {v : Val} {dst : Bytes} (hv : ValIn S v)
    (hrec : ∀ t x, v = .iface t x → ∀ j, depthI j ≤ 3 * W.tfuel + 1 → StructsIn W.E S j → ValIn S x → ∀ p d, rec p j x d ≠ .nofuel) :
    appendJSONV W rec path v dst ≠ .nofuel := by
  cases v <;> simp only [appendJSONV] <;> try simp
  rename_i t x
  simp only [ValIn] at hv
  obtain ⟨i, h1, h2, h3⟩ := instrFor_in fit hv.1
  rw [h1]
  exact hrec t x rfl i h2 h3 hv.2 _ _

theorem runV_ends (fit : Fit W S rk) (M : MethV) : ∀ (n : Nat) (path : Path) (i : Instr) (v : Val) (dst : Bytes),
    StructsIn W.E S i → ValIn S v → depthI i ≤ 3 * W.tfuel + 1 → cost W i v < n → runV W M o n path i v dst ≠ .nofuel
  | 0, _, _, _, _, _, _, _, h => by omega
  | n + 1, path, i, v, dst, hi, hv, hd, hc => by
    have ih := runV_ends fit M n
    have sub : ∀ {j : Instr} {x : Val}, StructsIn W.E S j → ValIn S x → depthV x < depthV v → depthI j ≤ 3 * W.tfuel + 1 → ∀ p d, runV W M o n p j x d ≠ .nofuel := by
      intro j x h1 h2 h3 h4 p d
      have := cost_lt (W := W) (i := i) (v := v) h3 h4
      exact ih p j x d h1 h2 h4 (by omega)
    have down : ∀ {j : Instr} {x : Val}, StructsIn W.E S j → ValIn S x → depthV x ≤ depthV v → depthI j < depthI i → ∀ p d, runV W M o n p j x d ≠ .nofuel := by
      intro j x h1 h2 h3 h4 p d
      have := cost_le (W := W) (i := i) (v := v) h3 h4
      exact ih p j x d h1 h2 (by omega) (by omega)
    have app : ∀ {x : Val}, ValIn S x → depthV x ≤ depthV v → ∀ p d, appendJSONV W (runV W M o n) p x d ≠ .nofuel := by
      intro x hx hle p d
      refine appendJSONV_ends fit hx fun t y hy j hj1 hj2 hy2 p d => ?_
      subst hy
      simp only [depthV] at hle
      exact sub hj2 hy2 (by omega) hj1 p d
    simp only [runV, execV]
    cases i with
    | goType s =>
      simp only [encodeSpecialV]
      split
      · rename_i kvs
        simp only [ValIn, valInKV_iff] at hv
        have hm : ∀ e ∈ W.visit path kvs, ValIn S e.1 ∧ ValIn S e.2 ∧ depthV e.1 ≤ depthKV kvs ∧ depthV e.2 ≤ depthKV kvs := by
          intro e he
          have he := visit_mem he
          exact ⟨(hv e he).1, (hv e he).2, depthKV_mem he⟩
        simp only [depthV] at app
        refine entries_ends (fun e he n dst => ?_) (fun e he n dst => ?_)
        · obtain ⟨h1, -, h3, -⟩ := hm e he
          generalize e.1 = k at h1 h3
          cases k <;> simp only [appendSyncMapKeyV] <;> try simp
          rename_i kt x
          split
          · simp
          · split
            · split <;> simp
            · have h4 := app h1 (by omega)
              split
              · simp
              · exact h4 _ _
        · obtain ⟨-, h2, -, h4⟩ := hm e he
          exact app h2 (by omega) _ _
      · simp only [BRes.res]; split <;> simp
      · simp only [BRes.res]; split <;> simp
      · simp only [exceptRes]; split <;> simp
      · simp only [withRead]; split <;> simp
      · simp
    | marshaler m t hp => exact marshaler_ends
    | bool => cases v <;> simp
    | int => cases v <;> simp
    | float =>
      cases v <;> simp only [exceptRes] <;> (try split) <;> simp
    | string => cases v <;> simp
    | quotedString => cases v <;> simp
    | quoted j =>
      have := down (j := j) (x := v) hi hv (Nat.le_refl _) (by simp [depthI])
      simp only
      split
      · simp
      · exact this _ _
    | nilText j =>
      have := down (j := j) (x := v) hi hv (Nat.le_refl _) (by simp [depthI])
      simp only
      split
      · simp
      · exact this _ _
    | inline j => exact down (j := j) (x := v) hi hv (Nat.le_refl _) (by simp [depthI]) _ _
    | iface =>
      simp only
      split
      · simp
      · exact app hv (Nat.le_refl _) _ _
    | struct t ca =>
      simp only
      split
      · simp
      · obtain ⟨l, h1, h2⟩ := structFields_in fit ca hi.1 hi.2
        rw [h1]
        refine structLoop_ends _ _ _ _ fun f hf x hx => ?_
        obtain ⟨h3, h4⟩ := route_in hx hv
        exact sub (h2 f hf).2 h4 h3 (h2 f hf).1
    | map t ki vi =>
      cases v <;> simp only <;> try simp
      rename_i kvs
      split
      · simp
      · simp only [ValIn, valInKV_iff] at hv
        have hm : ∀ e ∈ W.visit path kvs, ValIn S e.1 ∧ ValIn S e.2 ∧ depthV e.1 ≤ depthKV kvs ∧ depthV e.2 ≤ depthKV kvs := by
          intro e he
          have he := visit_mem he
          exact ⟨(hv e he).1, (hv e he).2, depthKV_mem he⟩
        simp only [depthV, depthI] at sub hd
        refine entries_ends (fun e he n dst => ?_) (fun e he n dst => ?_)
        · obtain ⟨h1, -, h3, -⟩ := hm e he
          exact sub hi.1 h1 (by omega) (by omega) _ _
        · obtain ⟨-, h1, -, h3⟩ := hm e he
          exact sub hi.2 h1 (by omega) (by omega) _ _
    | byteSlice => simp only [withRead]; split <;> simp
    | slice j =>
      cases v <;> simp only <;> try simp
      rename_i vs
      simp only [ValIn, valInL_iff] at hv
      simp only [depthV, depthI] at sub hd
      split
      · simp
      · refine array_ends fun x hx => ?_
        have := depthL_mem hx
        exact sub (j := j) hi (hv x hx) (by omega) (by omega)
    | array j =>
      cases v <;> simp only <;> try simp
      rename_i vs
      simp only [ValIn, valInL_iff] at hv
      simp only [depthV, depthI] at sub hd
      refine array_ends fun x hx => ?_
      have := depthL_mem hx
      exact sub (j := j) hi (hv x hx) (by omega) (by omega)
    | ptr j =>
      cases v <;> simp only <;> try simp
      rename_i x
      simp only [ValIn] at hv
      simp only [depthV, depthI] at sub hd
      exact sub (j := j) hi hv (by omega) (by omega) _ _
    | unsupported => simp

end Jettison.Proofs
