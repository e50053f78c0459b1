import Verif.Proofs.Members
import Verif.Proofs.Time
import Verif.Proofs.GoYear
import Verif.Spec.Faults

/-! # Where loops stop, and times that are never a panic -/

namespace Jettison.Proofs
open Jettison Jettison.Spec Jettison.Model

/-- Both did not succeed, for the same reason. -/
inductive Stops : Res → Res → Prop
  | fail {e b b'} : Stops (.fail e b) (.fail e b')
  | panic : Stops .panic .panic
  | bad : Stops .bad .bad
  | nofuel : Stops .nofuel .nofuel

theorem stops_after {a : Bytes} {r : Res} (h : ∀ b, r ≠ .ok b) : Stops r (Res.after a r) := by
  cases r with
  | ok b => exact absurd rfl (h b)
  | fail e b => exact .fail
  | panic => exact .panic
  | bad => exact .bad
  | nofuel => exact .nofuel

theorem stops_trans {a b c : Res} (h : Stops a b) (h' : Stops b c) : Stops a c := by
  cases h <;> cases h' <;> constructor

/-- One step: either it succeeds, or its outcome is that of the whole. -/
theorem pre_cases {f : Bytes → Res} (hf : Pre f) (dst : Bytes) :
    (∃ b, f [] = .ok b ∧ f dst = .ok (dst ++ b)) ∨ (Stops (f []) (f dst) ∧ ∀ b, f dst ≠ .ok b) := by
  rw [hf dst]
  cases h : f [] with
  | ok b => exact .inl ⟨b, rfl, rfl⟩
  | fail e b => exact .inr ⟨.fail, by simp [Res.after]⟩
  | panic => exact .inr ⟨.panic, by simp [Res.after]⟩
  | bad => exact .inr ⟨.bad, by simp [Res.after]⟩
  | nofuel => exact .inr ⟨.nofuel, by simp [Res.after]⟩

variable {o : EncOpts} {W : World}

theorem arrayV_stop {rec : RecV} (hp : ∀ path i v, Pre (rec path i v)) {path : Path} {ins : Instr} : ∀ (vs : List Val) (i : Nat) (dst : Bytes),
    ((∃ b, arrayLoopV rec path ins i vs dst = .ok b) ∧ ∀ x ∈ vs, ∃ path' b, rec path' ins x [] = .ok b) ∨
      ∃ x ∈ vs, ∃ path', Stops (rec path' ins x []) (arrayLoopV rec path ins i vs dst)
  | [], i, dst => .inl ⟨⟨_, rfl⟩, by simp⟩
  | v :: vs, i, dst => by
    simp only [arrayLoopV]
    rcases pre_cases (hp (i :: path) ins v) (dst ++ if i = 0 then b! "[" else b! ",") with ⟨b, h1, h2⟩ | ⟨h1, h2⟩
    · rw [h2]
      rcases arrayV_stop hp vs (i + 1) (dst ++ (if i = 0 then b! "[" else b! ",") ++ b) with ⟨h3, h4⟩ | ⟨x, h3, p, h4⟩
      · refine .inl ⟨h3, fun x hx => ?_⟩
        rcases List.mem_cons.mp hx with rfl | hx
        · exact ⟨_, _, h1⟩
        · exact h4 x hx
      · exact .inr ⟨x, by simp [h3], p, h4⟩
    · right
      refine ⟨v, by simp, _, stops_trans h1 ?_⟩
      generalize rec (i :: path) ins v _ = r at h2 ⊢
      cases r with
      | ok b => exact absurd rfl (h2 b)
      | fail e b => exact .fail
      | panic => exact .panic
      | bad => exact .bad
      | nofuel => exact .nofuel

theorem structV_stop {rec : RecV} (hp : ∀ path i v, Pre (rec path i v)) {path : Path} {v : Val} : ∀ (fs : List FInstr) (i : Nat) (first : Bool) (dst : Bytes),
    ((∃ b, structLoopV o rec path v i fs first dst = .ok b) ∧ ∀ f ∈ fs, ∀ x, fieldV o f v = some (some x) → ∃ path' b, rec path' f.instr x [] = .ok b) ∨
      (∃ f ∈ fs, ∃ x, fieldV o f v = some (some x) ∧ ∃ path', Stops (rec path' f.instr x []) (structLoopV o rec path v i fs first dst)) ∨
      structLoopV o rec path v i fs first dst = .bad
  | [], i, first, dst => .inl ⟨⟨_, rfl⟩, by simp⟩
  | f :: fs, i, first, dst => by
    simp only [structLoopV]
    cases hf : fieldV o f v with
    | none => exact .inr (.inr rfl)
    | some y =>
      cases y with
      | none =>
        simp only
        rcases structV_stop hp fs (i + 1) first dst (path := path) (v := v) with ⟨h3, h4⟩ | ⟨g, h3, x, h4⟩ | h3
        · refine .inl ⟨h3, fun g hg x hx => ?_⟩
          rcases List.mem_cons.mp hg with rfl | hg
          · rw [hf] at hx; cases hx
          · exact h4 g hg x hx
        · exact .inr (.inl ⟨g, by simp [h3], x, h4⟩)
        · exact .inr (.inr h3)
      | some x =>
        simp only
        rcases pre_cases (hp (i :: path) f.instr x) (dst ++ (if first then b! "{" else b! ",") ++ fieldKey o f.fld.name) with ⟨b, h1, h2⟩ | ⟨h1, h2⟩
        · rw [h2]
          simp only
          have key : ∀ d, ((∃ b, structLoopV o rec path v (i + 1) fs false d = .ok b) ∧ ∀ g ∈ f :: fs, ∀ x, fieldV o g v = some (some x) → ∃ path' b, rec path' g.instr x [] = .ok b) ∨
              (∃ g ∈ f :: fs, ∃ x, fieldV o g v = some (some x) ∧ ∃ path', Stops (rec path' g.instr x []) (structLoopV o rec path v (i + 1) fs false d)) ∨
              structLoopV o rec path v (i + 1) fs false d = .bad := by
            intro d
            rcases structV_stop hp fs (i + 1) false d (path := path) (v := v) with ⟨h3, h4⟩ | ⟨g, h3, y, h4⟩ | h3
            · refine .inl ⟨h3, fun g hg y hy => ?_⟩
              rcases List.mem_cons.mp hg with rfl | hg
              · rw [hf] at hy; cases hy; exact ⟨_, _, h1⟩
              · exact h4 g hg y hy
            · exact .inr (.inl ⟨g, by simp [h3], y, h4⟩)
            · exact .inr (.inr h3)
          split <;> split <;> exact key _
        · right; left
          refine ⟨f, by simp, x, hf, _, stops_trans h1 ?_⟩
          generalize rec (i :: path) f.instr x _ = r at h2 ⊢
          cases r with
          | ok b => exact absurd rfl (h2 b)
          | fail e b => exact .fail
          | panic => exact .panic
          | bad => exact .bad
          | nofuel => exact .nofuel

/-- What stops the loop over the entries of a map. -/
def EntryStop {α : Type} (o : EncOpts) (kf vf : Nat → α → Bytes → Res) (es : List α) (r : Res) : Prop :=
  ∃ a ∈ es, ∃ n, Stops (kf n a []) r ∨ Stops (vf n a []) r ∨
    (bmHas o.flags .unsortedMap = false ∧ r = .panic ∧ ∃ b, kf n a [] = .ok b ∧ b.length < 2)

theorem entryStop_cons {α : Type} {kf vf : Nat → α → Bytes → Res} {a : α} {es : List α} {r : Res} (h : EntryStop o kf vf es r) :
    EntryStop o kf vf (a :: es) r := by
  obtain ⟨x, hx, n, h⟩ := h
  exact ⟨x, by simp [hx], n, h⟩

theorem entryStop_stops {α : Type} {kf vf : Nat → α → Bytes → Res} {es : List α} {r r' : Res} (h : EntryStop o kf vf es r) (hr : Stops r r') :
    EntryStop o kf vf es r' := by
  obtain ⟨x, hx, n, h | h | ⟨h1, rfl, h2⟩⟩ := h
  · exact ⟨x, hx, n, .inl (stops_trans h hr)⟩
  · exact ⟨x, hx, n, .inr (.inl (stops_trans h hr))⟩
  · cases hr; exact ⟨x, hx, n, .inr (.inr ⟨h1, rfl, h2⟩)⟩

theorem stops_self {r : Res} (h : ∀ b, r ≠ .ok b) : Stops r r := by
  cases r with
  | ok b => exact absurd rfl (h b)
  | fail e b => exact .fail
  | panic => exact .panic
  | bad => exact .bad
  | nofuel => exact .nofuel

theorem unsorted_stop {α : Type} {kf vf : Nat → α → Bytes → Res} (hk : ∀ n a, Pre (kf n a)) (hv : ∀ n a, Pre (vf n a)) :
    ∀ (es : List α) (n : Nat) (dst : Bytes), (∃ b, unsortedLoop kf vf n es dst = .ok b) ∨ EntryStop o kf vf es (unsortedLoop kf vf n es dst)
  | [], n, dst => .inl ⟨dst, rfl⟩
  | e :: es, n, dst => by
    simp only [unsortedLoop]
    rcases pre_cases (hk n e) (if n ≠ 0 then dst ++ b! "," else dst) with ⟨b, h1, h2⟩ | ⟨h1, h2⟩
    · rw [h2]
      simp only
      generalize (if n ≠ 0 then dst ++ b! "," else dst) ++ b = d
      rcases pre_cases (hv n e) (d ++ b! ":") with ⟨b, h3, h4⟩ | ⟨h3, h4⟩
      · rw [h4]
        rcases unsorted_stop hk hv es (n + 1) (d ++ b! ":" ++ b) with h | h
        · exact .inl h
        · exact .inr (entryStop_cons h)
      · right
        refine ⟨e, by simp, n, .inr (.inl (stops_trans h3 ?_))⟩
        generalize vf n e _ = r at h4 ⊢
        cases r with
        | ok b => exact absurd rfl (h4 b)
        | fail e b => exact .fail
        | panic => exact .panic
        | bad => exact .bad
        | nofuel => exact .nofuel
    · right
      refine ⟨e, by simp, n, .inl (stops_trans h1 ?_)⟩
      generalize kf n e _ = r at h2 ⊢
      cases r with
      | ok b => exact absurd rfl (h2 b)
      | fail e b => exact .fail
      | panic => exact .panic
      | bad => exact .bad
      | nofuel => exact .nofuel

theorem sorted_stop {α : Type} {kf vf : Nat → α → Bytes → Res} (hk : ∀ n a, Pre (kf n a)) (hv : ∀ n a, Pre (vf n a))
    (hu : bmHas o.flags .unsortedMap = false) :
    ∀ (es : List α) (n : Nat) (buf : Bytes) (mel : List (Bytes × Bytes)), (∃ l, sortedLoop kf vf n es buf mel = .ok l) ∨
      ∃ r, sortedLoop kf vf n es buf mel = .stop r ∧ EntryStop o kf vf es r
  | [], n, buf, mel => .inl ⟨mel, rfl⟩
  | e :: es, n, buf, mel => by
    simp only [sortedLoop]
    rcases pre_cases (hk n e) buf with ⟨b, h1, h2⟩ | ⟨h1, h2⟩
    · rw [h2]
      simp only
      split
      · next hlt =>
        exact .inr ⟨_, rfl, e, by simp, n, .inr (.inr ⟨hu, rfl, b, h1, by simp at hlt; omega⟩)⟩
      · rcases pre_cases (hv n e) (buf ++ b ++ b! ":") with ⟨c, h3, h4⟩ | ⟨h3, h4⟩
        · rw [h4]
          simp only
          rw [if_neg (by simp)]
          rcases sorted_stop hk hv hu es (n + 1) (buf ++ b ++ b! ":" ++ c) _ with h | ⟨r, h, h'⟩
          · exact .inl h
          · exact .inr ⟨r, h, entryStop_cons h'⟩
        · right
          refine ⟨vf n e (buf ++ b ++ b! ":"), ?_, e, by simp, n, .inr (.inl h3)⟩
          generalize vf n e _ = r at h4 ⊢
          cases r with
          | ok b => exact absurd rfl (h4 b)
          | _ => rfl
    · right
      refine ⟨kf n e buf, ?_, e, by simp, n, .inl h1⟩
      generalize kf n e _ = r at h2 ⊢
      cases r with
      | ok b => exact absurd rfl (h2 b)
      | _ => rfl

theorem entries_stop {α : Type} {kf vf : Nat → α → Bytes → Res} (hk : ∀ n a, Pre (kf n a)) (hv : ∀ n a, Pre (vf n a)) (es : List α) (dst : Bytes) :
    ((∃ b, encodeEntries W o kf vf es dst = .ok b) ∧ ∀ a ∈ es, ∃ n k x, kf n a [] = .ok k ∧ vf n a [] = .ok x ∧
      (bmHas o.flags .unsortedMap = false → 2 ≤ k.length)) ∨ EntryStop o kf vf es (encodeEntries W o kf vf es dst) := by
  have hok : ∀ b, encodeEntries W o kf vf es dst = .ok b → ∀ a ∈ es, ∃ n k x, kf n a [] = .ok k ∧ vf n a [] = .ok x ∧
      (bmHas o.flags .unsortedMap = false → 2 ≤ k.length) := by
    intro b hb a ha
    obtain ⟨ts, hts, h⟩ := (entries_ok hk hv es dst b).mp hb
    obtain ⟨z1, z2, z3⟩ := (entryTexts_all2 hts).zip
    rw [← z1] at ha
    obtain ⟨z, hz, rfl⟩ := List.mem_map.mp ha
    obtain ⟨n, h1, h2⟩ := z3 z hz
    refine ⟨n, _, _, h1, h2, fun hu => ?_⟩
    rcases h with ⟨hu', -⟩ | ⟨-, hl, -⟩
    · rw [hu] at hu'; cases hu'
    · exact hl z.2 (by rw [← z2]; exact List.mem_map_of_mem hz)
  by_cases hb : ∃ b, encodeEntries W o kf vf es dst = .ok b
  · obtain ⟨b, hb⟩ := hb
    exact .inl ⟨⟨b, hb⟩, hok b hb⟩
  · right
    simp only [encodeEntries] at hb ⊢
    cases hu : bmHas o.flags .unsortedMap with
    | true =>
      simp only [hu, if_true] at hb ⊢
      rcases unsorted_stop (o := o) hk hv es 0 (dst ++ b! "{") with ⟨b, h⟩ | h
      · rw [h] at hb; exact absurd ⟨_, rfl⟩ hb
      · refine entryStop_stops h ?_
        generalize unsortedLoop kf vf 0 es (dst ++ b! "{") = r at hb ⊢
        cases r with
        | ok b => exact absurd ⟨_, rfl⟩ hb
        | fail e b => exact .fail
        | panic => exact .panic
        | bad => exact .bad
        | nofuel => exact .nofuel
    | false =>
      simp only [hu, Bool.false_eq_true, if_false, encodeSorted] at hb ⊢
      rcases sorted_stop (o := o) hk hv hu es 0 [] [] with ⟨l, h⟩ | ⟨r, h, h'⟩
      · rw [h] at hb; exact absurd ⟨_, rfl⟩ hb
      · rw [h] at hb ⊢
        refine entryStop_stops h' ?_
        cases r with
        | ok b => exact absurd ⟨_, rfl⟩ hb
        | fail e b => exact .fail
        | panic => exact .panic
        | bad => exact .bad
        | nofuel => exact .nofuel

/-! ## Times are never a panic -/

theorem wr_len {i n : Nat} {c : UInt8} {buf : Bytes} (hb : buf.length = n) (h : i < n) : ∃ b, wr i c buf = some b ∧ b.length = n :=
  ⟨buf.set i c, by simp [wr, hb, h], by simp [hb]⟩

theorem bind_len {n : Nat} {x : Option Bytes} {f : Bytes → Option Bytes} (hx : ∃ b, x = some b ∧ b.length = n)
    (hf : ∀ b, b.length = n → ∃ c, f b = some c ∧ c.length = n) : ∃ c, (x >>= f) = some c ∧ c.length = n := by
  obtain ⟨b, rfl, hb⟩ := hx
  exact hf b hb

theorem wrDigits_len {n : Nat} : ∀ (k hi x : Nat) (buf : Bytes), buf.length = n → hi < n → ∃ b, wrDigits k hi x buf = some b ∧ b.length = n
  | 0, _, _, buf, hb, _ => ⟨buf, rfl, hb⟩
  | k + 1, hi, x, buf, hb, h =>
    bind_len (wr_len hb h) fun b hb => wrDigits_len k (hi - 1) (x / 10) b hb (by omega)

/-- The days of the year 0, read with wrapped arithmetic, are wrong but no panic. -/
theorem rdn_zero : ∀ k : Fin 366, (rdnToYmd (toU32 (-(k.val : Int)))).isSome = true := by decide +kernel

theorem rdn_some {l : Int} (hlo : 0 ≤ l + epochSeconds) (hhi : l + epochSeconds < 3652425 * 86400) :
    ∃ r, rdnToYmd (toU32 ((l + 62135683200).tdiv 86400)) = some r := by
  unfold epochSeconds at *
  by_cases h : 0 ≤ l + 62135683200
  · obtain ⟨S, hS⟩ : ∃ S : Nat, l + 62135683200 = (S : Int) := ⟨(l + 62135683200).toNat, by omega⟩
    have hd : (S : Int).tdiv 86400 = ((S / 86400 : Nat) : Int) := by
      rw [Int.tdiv_eq_ediv_of_nonneg (by omega)]; omega
    have hr : (toU32 ((S / 86400 : Nat) : Int)).toNat = S / 86400 := by
      unfold toU32; rw [UInt32.toNat_ofNat']; omega
    obtain ⟨y, m, d, e, -⟩ := rdnToYmd_spec (toU32 ((S / 86400 : Nat) : Int)) (by omega)
    exact ⟨_, by rw [hS, hd]; exact e⟩
  · obtain ⟨S, hS⟩ : ∃ S : Nat, l + 62135683200 = -(S : Int) := ⟨(-(l + 62135683200)).toNat, by omega⟩
    have hd : (-(S : Int)).tdiv 86400 = -((S / 86400 : Nat) : Int) := by
      rw [Int.neg_tdiv, Int.tdiv_eq_ediv_of_nonneg (by omega)]; omega
    have := rdn_zero ⟨S / 86400, by omega⟩
    rw [hS, hd]
    exact Option.isSome_iff_exists.mp this

theorem putDateTime_len {t : GoTime} (hlo : 0 ≤ t.unix + t.offset + epochSeconds) (hhi : t.unix + t.offset + epochSeconds < 3652425 * 86400) :
    ∃ b, putDateTime t = some b ∧ b.length = 37 := by
  obtain ⟨⟨y, m, d⟩, hr⟩ := rdn_some hlo hhi
  unfold putDateTime
  simp only [hr, Option.bind_eq_bind, Option.bind_some]
  repeat refine bind_len (n := 37) (wr_len (by first | assumption | rfl) (by decide)) fun b hb => ?_
  refine bind_len (n := 37) (wrDigits_len _ _ _ _ (by assumption) (by decide)) fun b hb => ?_
  repeat refine bind_len (n := 37) (wr_len (by assumption) (by decide)) fun b hb => ?_
  exact wr_len (by assumption) (by decide)

theorem countPad_le (buf : Bytes) (n : Nat) : ∀ i, countPad buf n i ≤ i
  | 0 => Nat.le_refl _
  | i + 1 => by
    simp only [countPad]
    split
    · exact Nat.succ_le_succ (countPad_le buf n i)
    · omega

theorem putFrac_len {t : GoTime} {nano : Bool} {buf : Bytes} (hb : buf.length = 37) :
    ∃ b n, putFrac t nano buf = some (b, n) ∧ b.length = 37 ∧ n ≤ 30 ∧ 20 ≤ n := by
  unfold putFrac
  split
  · obtain ⟨b, h1, h2⟩ := bind_len (f := wrDigits 9 29 t.nsec) (wr_len (c := c! '.') (i := 20) hb (by decide)) fun b hb =>
      wrDigits_len 9 29 t.nsec b hb (by decide)
    have := countPad_le b 20 9
    refine ⟨b, 20 + (10 - countPad b 20 9), ?_, h2, by omega, by omega⟩
    simp only [← bind_assoc]
    rw [h1]; rfl
  · exact ⟨buf, 20, rfl, hb, by omega, by omega⟩

theorem putZone_len {t : GoTime} {buf : Bytes} {n : Nat} (hb : buf.length = 37) (hn : n ≤ 30) :
    ∃ b k, putZone t buf n = some (b, k) ∧ b.length = 37 ∧ k ≤ 36 ∧ n ≤ k := by
  unfold putZone
  split
  · obtain ⟨b, h1, h2⟩ := wr_len (c := c! 'Z') (i := n) hb (by omega)
    exact ⟨b, n + 1, by simp [h1], h2, by omega, by omega⟩
  · obtain ⟨b1, h1, g1⟩ := wr_len (c := if t.offset.tdiv 60 < 0 then c! '-' else c! '+') (i := n) hb (by omega)
    obtain ⟨b2, h2, g2⟩ := wr_len (c := c! ':') (i := n + 3) g1 (by omega)
    obtain ⟨b3, h3, g3⟩ := wr_len (c := byteDigit ((if t.offset.tdiv 60 < 0 then -t.offset.tdiv 60 else t.offset.tdiv 60).tmod 10)) (i := n + 5) g2 (by omega)
    obtain ⟨b4, h4, g4⟩ := wr_len (c := byteDigit (((if t.offset.tdiv 60 < 0 then -t.offset.tdiv 60 else t.offset.tdiv 60).tdiv 10).tmod 6)) (i := n + 4) g3 (by omega)
    obtain ⟨b5, h5, g5⟩ := wr_len (c := byteDigit ((((if t.offset.tdiv 60 < 0 then -t.offset.tdiv 60 else t.offset.tdiv 60).tdiv 10).tdiv 6).tmod 10)) (i := n + 2) g4 (by omega)
    obtain ⟨b6, h6, g6⟩ := wr_len (c := byteDigit (((((if t.offset.tdiv 60 < 0 then -t.offset.tdiv 60 else t.offset.tdiv 60).tdiv 10).tdiv 6).tdiv 10).tmod 10)) (i := n + 1) g5 (by omega)
    exact ⟨b6, n + 6, by simp [h1, h2, h3, h4, h5, h6], g6, by omega, by omega⟩

theorem rfc3339_len {t : GoTime} {nano : Bool} (hlo : 0 ≤ t.unix + t.offset + epochSeconds) (hhi : t.unix + t.offset + epochSeconds < 3652425 * 86400)
    (dst : Bytes) : ∃ b, appendRFC3339Time t dst nano = some (dst ++ b) ∧ 2 ≤ b.length := by
  obtain ⟨b1, h1, g1⟩ := putDateTime_len hlo hhi
  obtain ⟨b2, n2, h2, g2, l2, l2'⟩ := putFrac_len (t := t) (nano := nano) g1
  obtain ⟨b3, n3, h3, g3, l3, l3'⟩ := putZone_len (t := t) (n := n2) g2 l2
  obtain ⟨b4, h4, g4⟩ := wr_len (c := c! '"') (i := n3) g3 (by omega)
  exact ⟨b4.take (n3 + 1), by simp [appendRFC3339Time, h1, h2, h3, h4], by simp; omega⟩

theorem hasYear_bounds {x : GoTime} (h : HasYear x) : 0 ≤ x.unix + x.offset + epochSeconds ∧ x.unix + x.offset + epochSeconds < 3652425 * 86400 := by
  obtain ⟨y, mo, d, hh, mi, s, hy, hc⟩ := h
  have hu := (dayNumber_year hc.1).2
  have hm := daysBeforeYear_mono (show y + 1 ≤ 10000 by omega)
  have := daysBeforeYear_closed 10000
  obtain ⟨h1, h2, h3, h4, h5⟩ := hc
  omega

/-- A time with a year is encoded; as text it has its quotes. -/
theorem time_text (fmt : GoTime → Bytes → Bytes) {x : GoTime} (h : HasYear x) (dst : Bytes) (layout : Layout) :
    (∃ b, encodeTime fmt x dst false layout = .ok (dst ++ b) ∧ 2 ≤ b.length) ∧
      encodeTime fmt x dst true layout = .ok (appendInt dst (Int64.ofInt x.unix)) := by
  have hy : ¬ (goYear x < 0 ∨ goYear x ≥ 10000) := by
    obtain ⟨y, mo, d, hh, mi, s, hy, hc⟩ := h
    have := goYear_civil x hc
    omega
  obtain ⟨b1, b2⟩ := hasYear_bounds h
  refine ⟨?_, by simp only [encodeTime, if_neg hy, if_true]⟩
  simp only [encodeTime, if_neg hy, Bool.false_eq_true, if_false]
  cases layout with
  | rfc3339 =>
    obtain ⟨b, h1, h2⟩ := rfc3339_len (nano := false) b1 b2 dst
    exact ⟨b, by simp [h1], h2⟩
  | rfc3339Nano =>
    obtain ⟨b, h1, h2⟩ := rfc3339_len (nano := true) b1 b2 dst
    exact ⟨b, by simp [h1], h2⟩
  | other l => exact ⟨b! "\"" ++ fmt x l ++ b! "\"", by simp, by simp⟩

end Jettison.Proofs
