import Verif.Spec.Json
import Verif.Proofs.Unescape

/-! # String bodies as sequences of items -/

namespace Jettison.Proofs
open Jettison.Spec

/-- The text starts with the escape of a low surrogate. -/
def LowSur (t : Bytes) : Prop :=
  ∃ a b c d r v, t = c! '\\' :: c! 'u' :: a :: b :: c :: d :: r ∧ hex4 a b c d = some v ∧
    0xDC00 ≤ v ∧ v < 0xE000

/-- Relational reading of a string body. -/
inductive Body : Bytes → Bytes → Prop
  | nil : Body [] []
  | raw (c : UInt8) (t s : Bytes) : 0x20 ≤ c.toNat → c ≠ c! '"' → c ≠ c! '\\' → Body t s →
      Body (c :: t) (c :: s)
  | esc (e b : UInt8) (t s : Bytes) : simpleEscape e = some b → e ≠ c! 'u' → Body t s →
      Body (c! '\\' :: e :: t) (b :: s)
  | uni (a b c d : UInt8) (u : Nat) (t s : Bytes) : hex4 a b c d = some u →
      ¬ (0xD800 ≤ u ∧ u < 0xE000) → Body t s →
      Body (c! '\\' :: c! 'u' :: a :: b :: c :: d :: t) (utf8Encode u ++ s)
  | low (a b c d : UInt8) (u : Nat) (t s : Bytes) : hex4 a b c d = some u →
      0xDC00 ≤ u → u < 0xE000 → Body t s →
      Body (c! '\\' :: c! 'u' :: a :: b :: c :: d :: t) (replacement ++ s)
  | pair (a b c d l1 l2 l3 l4 : UInt8) (u v : Nat) (t s : Bytes) : hex4 a b c d = some u →
      0xD800 ≤ u → u < 0xDC00 → hex4 l1 l2 l3 l4 = some v → 0xDC00 ≤ v → v < 0xE000 → Body t s →
      Body (c! '\\' :: c! 'u' :: a :: b :: c :: d :: c! '\\' :: c! 'u' :: l1 :: l2 :: l3 :: l4 :: t)
        (utf8Encode (0x10000 + (u - 0xD800) * 1024 + (v - 0xDC00)) ++ s)
  | high (a b c d : UInt8) (u : Nat) (t s : Bytes) : hex4 a b c d = some u →
      0xD800 ≤ u → u < 0xDC00 → ¬ LowSur t → Body t s →
      Body (c! '\\' :: c! 'u' :: a :: b :: c :: d :: t) (replacement ++ s)

theorem nextItem_low (a b c d : UInt8) (u : Nat) (rest : Bytes) (h : hex4 a b c d = some u)
    (h1 : 0xDC00 ≤ u) (h2 : u < 0xE000) :
    nextItem (c! '\\' :: c! 'u' :: a :: b :: c :: d :: rest) = some (replacement, 6) := by
  unfold nextItem
  simp only [h]
  rw [if_neg (by decide), if_pos trivial, if_pos trivial, if_neg (by omega), if_pos ⟨h1, h2⟩]

theorem nextItem_pair (a b c d l1 l2 l3 l4 : UInt8) (u v : Nat) (rest : Bytes)
    (h : hex4 a b c d = some u) (h1 : 0xD800 ≤ u) (h2 : u < 0xDC00)
    (h' : hex4 l1 l2 l3 l4 = some v) (h3 : 0xDC00 ≤ v) (h4 : v < 0xE000) :
    nextItem (c! '\\' :: c! 'u' :: a :: b :: c :: d :: c! '\\' :: c! 'u' :: l1 :: l2 :: l3 :: l4 :: rest) =
      some (utf8Encode (0x10000 + (u - 0xD800) * 1024 + (v - 0xDC00)), 12) := by
  unfold nextItem
  simp only [h, h']
  rw [if_neg (by decide), if_pos trivial, if_pos trivial, if_pos ⟨h1, h2⟩, if_pos ⟨trivial, trivial⟩,
    if_pos ⟨h3, h4⟩]

theorem nextItem_high (a b c d : UInt8) (u : Nat) (rest : Bytes) (h : hex4 a b c d = some u)
    (h1 : 0xD800 ≤ u) (h2 : u < 0xDC00) (hl : ¬ LowSur rest) :
    nextItem (c! '\\' :: c! 'u' :: a :: b :: c :: d :: rest) = some (replacement, 6) := by
  unfold nextItem
  simp only [h]
  rw [if_neg (by decide), if_pos trivial, if_pos trivial, if_pos ⟨h1, h2⟩]
  split
  · rename_i x y l1 l2 l3 l4 r
    split
    · rename_i hxy
      obtain ⟨rfl, rfl⟩ := hxy
      split
      · rename_i v hv
        split
        · rename_i hr
          exact absurd ⟨l1, l2, l3, l4, r, v, rfl, hv, hr.1, hr.2⟩ hl
        · rfl
      · rfl
    · rfl
  · rfl

theorem body_unescape {b s : Bytes} (h : Body b s) : unescape b = some s := by
  induction h with
  | nil => rfl
  | raw c t s h1 h2 h3 _ ih => rw [unescape_raw c t h1 h2 h3, ih]; rfl
  | esc e b t s h1 h2 _ ih =>
    have := unescape_item [c! '\\', e] t [b] (by simp) (nextItem_simple e b t h1 h2)
    rw [List.cons_append, List.cons_append, List.nil_append] at this
    rw [this, ih]; rfl
  | uni a b c d u t s h1 h2 _ ih =>
    have := unescape_item [c! '\\', c! 'u', a, b, c, d] t _ (by simp) (nextItem_u4 a b c d u t h1 h2)
    simp only [List.cons_append, List.nil_append] at this
    rw [this, ih]; rfl
  | low a b c d u t s h1 h2 h3 _ ih =>
    have := unescape_item [c! '\\', c! 'u', a, b, c, d] t _ (by simp) (nextItem_low a b c d u t h1 h2 h3)
    simp only [List.cons_append, List.nil_append] at this
    rw [this, ih]; rfl
  | pair a b c d l1 l2 l3 l4 u v t s h1 h2 h3 h4 h5 h6 _ ih =>
    have := unescape_item [c! '\\', c! 'u', a, b, c, d, c! '\\', c! 'u', l1, l2, l3, l4] t _ (by simp)
      (nextItem_pair a b c d l1 l2 l3 l4 u v t h1 h2 h3 h4 h5 h6)
    simp only [List.cons_append, List.nil_append] at this
    rw [this, ih]; rfl
  | high a b c d u t s h1 h2 h3 h4 _ ih =>
    have := unescape_item [c! '\\', c! 'u', a, b, c, d] t _ (by simp) (nextItem_high a b c d u t h1 h2 h3 h4)
    simp only [List.cons_append, List.nil_append] at this
    rw [this, ih]; rfl

theorem lowSur_not {t : Bytes} {x y l1 l2 l3 l4 : UInt8} {r : Bytes}
    (ht : t = x :: y :: l1 :: l2 :: l3 :: l4 :: r)
    (h : ¬ (x = c! '\\' ∧ y = c! 'u' ∧ ∃ v, hex4 l1 l2 l3 l4 = some v ∧ 0xDC00 ≤ v ∧ v < 0xE000)) :
    ¬ LowSur t := by
  rintro ⟨a, b, c, d, r', v, e, hv, h1, h2⟩
  rw [ht] at e
  simp only [List.cons.injEq] at e
  obtain ⟨rfl, rfl, rfl, rfl, rfl, rfl, rfl⟩ := e
  exact h ⟨rfl, rfl, v, hv, h1, h2⟩

/-- The step of the decoder as a step of the relation. -/
theorem item_body {body content : Bytes} {n : Nat} (h : nextItem body = some (content, n)) :
    n ≤ body.length ∧ ∀ s, Body (body.drop n) s → Body body (content ++ s) := by
  cases body with
  | nil => simp [nextItem] at h
  | cons c t =>
    unfold nextItem at h
    simp only at h
    split at h
    · simp at h
    · rename_i hc
      simp only [not_or, UInt8.lt_iff_toNat_lt, Nat.not_lt] at hc
      split at h
      · rename_i hbs
        subst hbs
        split at h
        · simp at h
        · rename_i e t
          split at h
          · rename_i hu
            subst hu
            split at h
            · rename_i h1 h2 h3 h4 t
              split at h
              · simp at h
              · rename_i u hx
                split at h
                · rename_i hr
                  have hhigh : ¬ LowSur t → content = replacement → n = 6 →
                      n ≤ (c! '\\' :: c! 'u' :: h1 :: h2 :: h3 :: h4 :: t).length ∧
                      ∀ s, Body (List.drop n (c! '\\' :: c! 'u' :: h1 :: h2 :: h3 :: h4 :: t)) s →
                        Body (c! '\\' :: c! 'u' :: h1 :: h2 :: h3 :: h4 :: t) (content ++ s) := by
                    rintro hl rfl rfl
                    exact ⟨by simp, fun s hs => Body.high _ _ _ _ u t s hx hr.1 hr.2 hl hs⟩
                  split at h
                  · rename_i x y l1 l2 l3 l4 r
                    split at h
                    · rename_i hxy
                      obtain ⟨rfl, rfl⟩ := hxy
                      split at h
                      · rename_i v hv
                        split at h
                        · rename_i hvr
                          simp only [Option.some.injEq, Prod.mk.injEq] at h
                          obtain ⟨rfl, rfl⟩ := h
                          exact ⟨by simp, fun s hs =>
                            Body.pair _ _ _ _ _ _ _ _ u v r s hx hr.1 hr.2 hv hvr.1 hvr.2 hs⟩
                        · rename_i hvr
                          simp only [Option.some.injEq, Prod.mk.injEq] at h
                          refine hhigh (lowSur_not rfl ?_) h.1.symm h.2.symm
                          rintro ⟨-, -, v', e, h5, h6⟩
                          rw [hv] at e; cases e; exact hvr ⟨h5, h6⟩
                      · rename_i hv
                        simp only [Option.some.injEq, Prod.mk.injEq] at h
                        refine hhigh (lowSur_not rfl ?_) h.1.symm h.2.symm
                        rintro ⟨-, -, v', e, -⟩
                        rw [hv] at e; cases e
                    · rename_i hxy
                      simp only [Option.some.injEq, Prod.mk.injEq] at h
                      exact hhigh (lowSur_not rfl (fun hh => hxy ⟨hh.1, hh.2.1⟩)) h.1.symm h.2.symm
                  · rename_i hno
                    simp only [Option.some.injEq, Prod.mk.injEq] at h
                    refine hhigh ?_ h.1.symm h.2.symm
                    rintro ⟨a, b, c, d, r, v, e, -⟩
                    exact hno _ _ _ _ _ _ _ e
                · split at h
                  · rename_i hr
                    simp only [Option.some.injEq, Prod.mk.injEq] at h
                    obtain ⟨rfl, rfl⟩ := h
                    exact ⟨by simp, fun s hs => Body.low _ _ _ _ u t s hx hr.1 hr.2 hs⟩
                  · simp only [Option.some.injEq, Prod.mk.injEq] at h
                    obtain ⟨rfl, rfl⟩ := h
                    exact ⟨by simp, fun s hs => Body.uni _ _ _ _ u t s hx (by omega) hs⟩
            · simp at h
          · rename_i hu
            cases hse : simpleEscape e with
            | none => rw [hse] at h; simp at h
            | some b =>
              rw [hse] at h
              simp only [Option.map_some, Option.some.injEq, Prod.mk.injEq] at h
              obtain ⟨rfl, rfl⟩ := h
              exact ⟨by simp, fun s hs => Body.esc e b t s hse hu hs⟩
      · rename_i hbs
        simp only [Option.some.injEq, Prod.mk.injEq] at h
        obtain ⟨rfl, rfl⟩ := h
        exact ⟨by simp, fun s hs => Body.raw c t s (by simpa using hc.1) hc.2 hbs hs⟩

theorem unescapeAux_body : ∀ (f : Nat) (b s : Bytes), unescapeAux f b = some s → Body b s := by
  intro f
  induction f with
  | zero => intro b s h; cases b with
    | nil => simp [unescapeAux] at h; subst h; exact Body.nil
    | cons => simp [unescapeAux] at h
  | succ f ih =>
    intro b s h
    cases b with
    | nil => simp [unescapeAux] at h; subst h; exact Body.nil
    | cons c t =>
      simp only [unescapeAux] at h
      split at h
      · simp at h
      · rename_i content n hi
        cases hr : unescapeAux f (List.drop n (c :: t)) with
        | none => rw [hr] at h; simp at h
        | some r =>
          rw [hr] at h
          simp only [Option.map_some, Option.some.injEq] at h
          subst h
          exact (item_body hi).2 r (ih _ _ hr)

theorem unescape_iff_body {b s : Bytes} : unescape b = some s ↔ Body b s :=
  ⟨unescapeAux_body _ _ _, body_unescape⟩

end Jettison.Proofs
