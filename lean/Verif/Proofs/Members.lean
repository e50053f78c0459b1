import Verif.Proofs.Order
import Verif.Proofs.Refine

/-! # The members of maps -/

namespace Jettison.Proofs
open Jettison Jettison.Spec Jettison.Model

/-- A permutation of an image is the image of a permutation. -/
theorem perm_map_inv {α β : Type} (f : α → β) {l' m : List β} (h : l'.Perm m) : ∀ {l : List α}, m = l.map f → ∃ l2 : List α, l2.Perm l ∧ l2.map f = l' := by
  induction h with
  | nil => intro l hl; exact ⟨l, .refl _, hl.symm⟩
  | cons x _ ih =>
    intro l hl
    cases l with
    | nil => cases hl
    | cons a l =>
      simp only [List.map_cons, List.cons.injEq] at hl
      obtain ⟨l2, h1, h2⟩ := ih hl.2
      exact ⟨a :: l2, .cons _ h1, by simp [h2, hl.1]⟩
  | swap x y l0 =>
    intro l hl
    cases l with
    | nil => cases hl
    | cons a l =>
      cases l with
      | nil => simp at hl
      | cons b l =>
        simp only [List.map_cons, List.cons.injEq] at hl
        exact ⟨b :: a :: l, .swap _ _ _, by simp [hl]⟩
  | trans _ _ ih1 ih2 =>
    intro l hl
    obtain ⟨l2, h1, h2⟩ := ih2 hl
    obtain ⟨l3, h3, h4⟩ := ih1 h2.symm
    exact ⟨l3, h3.trans h1, h4⟩

theorem All2.zip {α β : Type} {R : α → β → Prop} {l : List α} {m : List β} (h : All2 R l m) : (l.zip m).map Prod.fst = l ∧ (l.zip m).map Prod.snd = m ∧
    ∀ x ∈ l.zip m, R x.1 x.2 := by
  induction h with
  | nil => exact ⟨rfl, rfl, by simp⟩
  | cons h _ ih =>
    refine ⟨by simp [ih.1], by simp [ih.2.1], fun x hx => ?_⟩
    rcases List.mem_cons.mp hx with rfl | hx
    · exact h
    · exact ih.2.2 x hx

theorem bytesLess_byteLe : ∀ x y, bytesLess y x = false → ByteLe x y
  | [], _, _ => trivial
  | _ :: _, [], h => by simp [bytesLess] at h
  | a :: x, b :: y, h => by
    simp only [bytesLess] at h
    by_cases hab : b = a
    · subst hab
      simp only [ne_eq, not_true_eq_false, if_false] at h
      exact .inr ⟨rfl, bytesLess_byteLe x y h⟩
    · simp only [ne_eq, hab, not_false_eq_true, if_true, decide_eq_false_iff_not] at h
      refine .inl ?_
      rw [UInt8.lt_iff_toNat_lt] at h ⊢
      have : b.toNat ≠ a.toNat := fun e => hab (UInt8.toNat_inj.mp e)
      omega

/-- The members written for the entries `l`. -/
theorem entries_members {α : Type} {W : World} {o : EncOpts} {kf vf : Nat → α → Bytes → Res} (hk : ∀ n a, Pre (kf n a)) (hv : ∀ n a, Pre (vf n a))
    (hs : SortOk W.sort) {l : List α} {dst out : Bytes} (h : encodeEntries W o kf vf l dst = .ok out) :
    ∃ ms : List (α × (Bytes × Bytes)), (ms.map Prod.fst).Perm l ∧ (∀ m ∈ ms, ∃ n, kf n m.1 [] = .ok m.2.1 ∧ vf n m.1 [] = .ok m.2.2) ∧
      out = dst ++ (b! "{" ++ commas (ms.map fun m => m.2.1 ++ b! ":" ++ m.2.2) ++ b! "}") ∧
      (bmHas o.flags .unsortedMap = true → ms.map Prod.fst = l) ∧
      (bmHas o.flags .unsortedMap = false → (ms.Pairwise fun a b => ByteLe (keyBody a.2.1) (keyBody b.2.1)) ∧ ∀ m ∈ ms, 2 ≤ m.2.1.length) := by
  obtain ⟨ts, hts, h⟩ := (entries_ok hk hv l dst out).mp h
  obtain ⟨z1, z2, z3⟩ := (entryTexts_all2 hts).zip
  rcases h with ⟨hu, rfl⟩ | ⟨hu, hlong, rfl⟩
  · refine ⟨l.zip ts, by rw [z1], z3, ?_, fun _ => z1, fun h => by rw [hu] at h; cases h⟩
    congr 4
    conv => lhs; rw [← z2]
    rw [List.map_map]; rfl
  · have hp := hs.perm kvLess (ts.map fun t => (innerKey t.1, entryText t))
    have e : ts.map (fun t => (innerKey t.1, entryText t)) = (l.zip ts).map fun m => (innerKey m.2.1, entryText m.2) := by
      conv => lhs; rw [← z2]
      rw [List.map_map]; rfl
    obtain ⟨ms, h1, h2⟩ := perm_map_inv _ hp e
    refine ⟨ms, by rw [← z1]; exact h1.map _, fun m hm => z3 m (h1.mem_iff.mp hm), ?_, fun h => (by rw [hu] at h; cases h), fun _ => ⟨?_, fun m hm => ?_⟩⟩
    · rw [← h2, List.map_map]; rfl
    · have := hs.sorted kvLess (ts.map fun t => (innerKey t.1, entryText t)) strictWeak_kv
      rw [← h2, List.pairwise_map] at this
      refine this.imp fun {a b} hab => ?_
      simp only [kvLess, innerKey_eq] at hab
      exact bytesLess_byteLe _ _ hab
    · have hin := h1.mem_iff.mp hm
      exact hlong _ (by rw [← z2]; exact List.mem_map_of_mem hin)

end Jettison.Proofs
