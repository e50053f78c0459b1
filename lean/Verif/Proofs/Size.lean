import Verif.Spec.Size
import Verif.Proofs.Lossless
import Verif.Proofs.Recorded

/-! # The lengths of texts -/

namespace Jettison.Proofs
open Jettison Jettison.Spec Jettison.Model

/-! ## Strings -/

theorem uForm_length (c : UInt8) : (uForm c).length = 6 := rfl

theorem utf8Encode_length (cp : Nat) : 1 ≤ (utf8Encode cp).length := by unfold utf8Encode; split <;> (try split) <;> (try split) <;> simp

theorem spelling_le {html coerce : Bool} {s r : Bytes} (h : Spelling html coerce s r) : r.length ≤ 6 * s.length := by
  have e8 : (utf8Encode 0x2028).length = 3 := by decide +kernel
  have e9 : (utf8Encode 0x2029).length = 3 := by decide +kernel
  induction h with
  | nil => simp
  | char => simp only [List.length_append] at *; omega
  | sep8 | sep9 => simp only [List.length_append] at *; simp only [e8, e9, show (b! "\\u2028").length = 6 from rfl, show (b! "\\u2029").length = 6 from rfl]; omega
  | _ => simp only [List.length_append, List.length_cons, List.length_nil, uForm_length] at *; omega

theorem spelledAs_le {o : EncOpts} {s r : Bytes} (h : SpelledAs o s r) : r.length ≤ 6 * s.length := by
  cases h with
  | raw => omega
  | escaped _ h => exact spelling_le h

theorem spelledAs_ge {o : EncOpts} {s r : Bytes} (h : SpelledAs o s r) : s.length ≤ r.length := by
  cases h with
  | raw => omega
  | escaped _ h =>
    induction h with
    | nil => simp
    | char | sep8 | sep9 => simp only [List.length_append] at *; first | omega | (have e8 : (utf8Encode 0x2028).length = 3 := by decide +kernel
                                                                                  have e9 : (utf8Encode 0x2029).length = 3 := by decide +kernel
                                                                                  simp only [e8, e9, show (b! "\\u2028").length = 6 from rfl, show (b! "\\u2029").length = 6 from rfl]; omega)
    | _ => simp only [List.length_append, List.length_cons, List.length_nil, uForm_length] at *; omega

theorem marked_le {s r : Bytes} (h : Marked s r) : r.length ≤ 6 * s.length := by
  have e8 : (utf8Encode 0x2028).length = 3 := by decide +kernel
  have e9 : (utf8Encode 0x2029).length = 3 := by decide +kernel
  induction h with
  | nil => simp
  | sep8 | sep9 => simp only [List.length_append] at *; simp only [e8, e9, show (b! "\\u2028").length = 6 from rfl, show (b! "\\u2029").length = 6 from rfl]; omega
  | _ => simp only [List.length_append, List.length_cons, List.length_nil, uForm_length] at *; omega

theorem namedAs_le {o : EncOpts} {s r : Bytes} (h : NamedAs o s r) : r.length ≤ 6 * s.length := by
  cases h with
  | raw => omega
  | marked _ h => exact marked_le h

theorem squeezed_le {html : Bool} {pl : Place} {s r : Bytes} (h : Squeezed html pl s r) : r.length ≤ 6 * s.length := by
  have e8 : (utf8Encode 0x2028).length = 3 := by decide +kernel
  have e9 : (utf8Encode 0x2029).length = 3 := by decide +kernel
  induction h with
  | nil => simp
  | sep8 | sep9 => simp only [List.length_append] at *; simp only [e8, e9, show (b! "\\u2028").length = 6 from rfl, show (b! "\\u2029").length = 6 from rfl]; omega
  | _ => simp only [List.length_append, List.length_cons, List.length_nil, uForm_length] at *; omega

theorem copiedAs_le {o : EncOpts} {s r : Bytes} (h : CopiedAs o s r) : r.length ≤ 6 * s.length := by
  cases h with
  | verbatim => omega
  | compact _ h => exact squeezed_le h

/-! ## Numbers -/

theorem intPart_le {s : Bytes} (h : IntPart s) {k : Nat} (hk : 1 ≤ k) (hv : digitsVal s < 10 ^ k) : s.length ≤ k := by
  rcases h with rfl | ⟨d, ds, rfl, hd, -⟩
  · exact hk
  · simp only [digitsVal, List.foldl_cons] at hv
    have h1 : 1 ≤ 10 * 0 + (d.toNat - 48) := by
      have := UInt8.le_iff_toNat_le.mp hd.1
      simp only [show (c! '1' : UInt8).toNat = 49 from rfl] at this
      omega
    have h2 := Nat.le_trans (Nat.mul_le_mul_right (10 ^ ds.length) h1) (Nat.le_trans (Nat.le_add_right _ _) (Nat.le_of_eq (digitsVal_foldl ds _).symm))
    rw [Nat.one_mul] at h2
    have := (Nat.pow_lt_pow_iff_right (a := 10) (by omega)).mp (Nat.lt_of_le_of_lt h2 hv)
    simp only [List.length_cons]
    omega

theorem intLiteral_le {b : Bytes} {z : Int} (h : IntLiteral b z) {k : Nat} (hk : 1 ≤ k) (hv : z.natAbs < 10 ^ k) : b.length ≤ k + 1 := by
  cases h with
  | nonneg _ h => exact Nat.le_succ_of_le (intPart_le h hk (by simpa using hv))
  | neg _ h => simpa using intPart_le h hk (by simpa using hv)

theorem natLiteral_le {b : Bytes} {n : Nat} (h : IntLiteral b (n : Nat)) {k : Nat} (hk : 1 ≤ k) (hv : n < 10 ^ k) : b.length ≤ k := by
  generalize hz : (n : Int) = z at h
  cases h with
  | nonneg _ h => exact intPart_le h hk (by omega)
  | neg _ _ h => omega

theorem intOf_abs (x : IntVal) : (intOf x).natAbs < 10 ^ 20 := by
  cases x <;> simp only [intOf] <;> (rename_i v; first
    | (have h1 := v.toInt_lt; have h2 := v.le_toInt; omega)
    | (have := v.toNat_lt; omega))

theorem int64_abs (d : Int64) : d.toInt.natAbs ≤ 9223372036854775808 := by
  have h1 := d.toInt_lt; have h2 := d.le_toInt; omega

theorem fracText_le {f : Bytes} {p r : Nat} (h : FracText f p r) : f.length ≤ p + 1 := by
  rcases h with ⟨rfl, -⟩ | ⟨a, d, rfl, -, h⟩
  · simp
  · have := h.2.1; simp only [List.length_cons] at *; omega

theorem minusDigits_length (w n : Nat) : (minusDigits w n).length = w := by
  induction w generalizing n with
  | zero => rfl
  | succ w ih => simp [minusDigits, ih]

theorem zoneText_le (z : Int) : (zoneText z).length ≤ 6 := by
  unfold zoneText
  split
  · decide
  · simp only [List.length_append, padDigits_length]
    split <;> simp

theorem timeWritten_le {x : GoTime} {nano : Bool} {b : Bytes} (h : TimeWritten x nano b) : b.length ≤ 35 := by
  have hz := zoneText_le x.offset
  rcases h with ⟨-, y, mo, d, h, mi, s, f, -, -, hf, rfl⟩ | ⟨-, day, y, mo, d, h, mi, s, f, -, -, -, -, -, -, hf, rfl⟩
  · have := fracText_le hf
    simp only [dateTimeText, List.length_append, padDigits_length, List.length_cons, List.length_nil]
    omega
  · have := fracText_le hf
    simp only [List.length_append, padDigits_length, minusDigits_length, List.length_cons, List.length_nil]
    omega

theorem clockText_le {u : Nat} {b : Bytes} (h : ClockText u b) (hu : u ≤ 9223372036854775808) : b.length ≤ 30 := by
  cases h with
  | zero => decide
  | ns _ h1 h2 => have := natLiteral_le h2 (k := 3) (by omega) (by omega); simp only [List.length_append, List.length_cons, List.length_nil]; omega
  | us _ h1 h2 h3 =>
    have := natLiteral_le h2 (k := 3) (by omega) (by omega); have := fracText_le h3
    simp only [List.length_append, show (b! "µs").length = 3 from by decide]; omega
  | ms _ h1 h2 h3 =>
    have := natLiteral_le h2 (k := 3) (by omega) (by omega); have := fracText_le h3
    simp only [List.length_append, List.length_cons, List.length_nil]; omega
  | s _ h1 h2 h3 =>
    have := natLiteral_le h2 (k := 2) (by omega) (by omega); have := fracText_le h3
    simp only [List.length_append, List.length_cons, List.length_nil]; omega
  | m _ h1 h2 h3 h4 =>
    have := natLiteral_le h2 (k := 2) (by omega) (by omega); have := natLiteral_le h3 (k := 2) (by omega) (by omega); have := fracText_le h4
    simp only [List.length_append, List.length_cons, List.length_nil]; omega
  | h _ h1 h2 h3 h4 =>
    have := natLiteral_le h1 (k := 7) (by omega) (by omega); have := natLiteral_le h2 (k := 2) (by omega) (by omega)
    have := natLiteral_le h3 (k := 2) (by omega) (by omega); have := fracText_le h4
    simp only [List.length_append, List.length_cons, List.length_nil]; omega

theorem floatText_le {fmt : FloatFmt} {w : FWidth} {bits F : Nat} {b : Bytes} (h : FloatText fmt w bits b)
    (hF : ∀ w bits e, IsFinite w bits → (fmt w bits e).length ≤ F) : b.length ≤ F := by
  cases h with
  | plain h => exact hF _ _ _ h
  | exp h => exact hF _ _ _ h
  | short h _ he =>
    have := hF w bits true h
    rw [he] at this
    simp only [List.length_append, List.length_cons, List.length_nil] at *
    omega

/-! ## base64 -/

theorem bits_length (n : Nat) (l : List Nat) : (l.flatMap (bitsOf n)).length = n * l.length := by
  induction l with
  | nil => rfl
  | cons a l ih => simp only [List.flatMap_cons, List.length_append, ih, List.length_cons, bitsOf, List.length_map, List.length_reverse, List.length_range]; rw [Nat.mul_add]; omega

theorem base64_length {x b : Bytes} (h : IsBase64 x b) : b.length = 4 * ((x.length + 2) / 3) := by
  obtain ⟨v, pad, -, hp, hm, rfl, hb⟩ := h
  have := congrArg List.length hb
  rw [sextetBits, bits_length, List.length_append, byteBits_length, List.length_replicate] at this
  simp only [List.length_append, List.length_map, List.length_replicate]
  omega

/-! ## Lists -/

theorem commas_length : ∀ l : List Bytes, (commas l).length ≤ (l.map fun b => b.length + 1).sum
  | [] => by simp [commas]
  | [x] => by simp [commas]
  | x :: y :: t => by
    have := commas_length (y :: t)
    simp only [commas, List.length_append, List.map_cons, List.sum_cons, List.length_cons, List.length_nil] at *
    omega

theorem sum_map_le {α : Type} {f g : α → Nat} {l : List α} (h : ∀ x ∈ l, f x ≤ g x) : (l.map f).sum ≤ (l.map g).sum := by
  induction l with
  | nil => simp
  | cons a l ih =>
    simp only [List.map_cons, List.sum_cons]
    exact Nat.add_le_add (h a List.mem_cons_self) (ih fun x hx => h x (List.mem_cons_of_mem _ hx))

theorem sum_sublist_le {α : Type} {f : α → Nat} {l l' : List α} (h : l.Sublist l') : (l.map f).sum ≤ (l'.map f).sum := by
  induction h with
  | slnil => simp
  | cons => simp only [List.map_cons, List.sum_cons]; omega
  | cons_cons => simp only [List.map_cons, List.sum_cons]; omega

/-- Sums over lists that are related element by element. -/
theorem sum_le_of_zip {α β : Type} {f : β → Nat} {g : α → Nat} {l : List α} {r : List β} (hl : r.length = l.length)
    (h : ∀ (i : Nat) x y, l[i]? = some x → r[i]? = some y → f y ≤ g x) : (r.map f).sum ≤ (l.map g).sum := by
  induction l generalizing r with
  | nil => rw [List.eq_nil_of_length_eq_zero hl]; simp
  | cons a l ih =>
    cases r with
    | nil => simp at hl
    | cons b r =>
      simp only [List.map_cons, List.sum_cons]
      exact Nat.add_le_add (h 0 a b rfl rfl) (ih (by simpa using hl) fun i x y hx hy => h (i + 1) x y (by simpa using hx) (by simpa using hy))

theorem sum_filter {α : Type} (f : α → Nat) (p : α → Bool) (l : List α) :
    ((l.filter p).map f).sum + ((l.filter fun a => !p a).map f).sum = (l.map f).sum := by
  induction l with
  | nil => rfl
  | cons a l ih =>
    cases h : p a <;> simp only [List.filter_cons, h, Bool.not_true, Bool.not_false, if_true, if_false, List.map_cons, List.sum_cons, Bool.false_eq_true] <;> omega

/-! ## The weight of a value -/

/-- A weight of `c` for each byte of a string and `k` for each value. -/
def weight (c k : Nat) (v : Val) : Nat := c * v.chars + k * v.nodes

variable {c k : Nat}

theorem weight_list (vs : List Val) : c * charsOf vs + k * nodesOf vs = (vs.map (weight c k)).sum := by
  induction vs with
  | nil => rfl
  | cons v vs ih =>
    simp only [charsOf, nodesOf, List.map_cons, List.sum_cons, ← ih, weight, Nat.mul_add]
    omega

theorem weight_entries (kvs : List (Val × Val)) :
    c * charsOfEntries kvs + k * nodesOfEntries kvs = (kvs.map fun kv => weight c k kv.1 + weight c k kv.2).sum := by
  induction kvs with
  | nil => rfl
  | cons kv kvs ih =>
    obtain ⟨x, y⟩ := kv
    rw [List.map_cons, List.sum_cons, ← ih]
    simp only [charsOfEntries, nodesOfEntries, weight, Nat.mul_add]
    omega

theorem weight_slice (vs : List Val) : weight c k (.slice vs) = (vs.map (weight c k)).sum + k := by
  rw [← weight_list]; simp only [weight, Val.chars, Val.nodes, Nat.mul_add]; omega
theorem weight_array (vs : List Val) : weight c k (.array vs) = (vs.map (weight c k)).sum + k := by
  rw [← weight_list]; simp only [weight, Val.chars, Val.nodes, Nat.mul_add]; omega
theorem weight_struct (vs : List Val) : weight c k (.struct vs) = (vs.map (weight c k)).sum + k := by
  rw [← weight_list]; simp only [weight, Val.chars, Val.nodes, Nat.mul_add]; omega
theorem weight_map (kvs : List (Val × Val)) : weight c k (.map kvs) = (kvs.map fun kv => weight c k kv.1 + weight c k kv.2).sum + k := by
  rw [← weight_entries]; simp only [weight, Val.chars, Val.nodes, Nat.mul_add]; omega
theorem weight_smap (kvs : List (Val × Val)) : weight c k (.smap kvs) = (kvs.map fun kv => weight c k kv.1 + weight c k kv.2).sum + k := by
  rw [← weight_entries]; simp only [weight, Val.chars, Val.nodes, Nat.mul_add]; omega
theorem weight_ptr (v : Val) : weight c k (.ptr v) = weight c k v + k := by simp only [weight, Val.chars, Val.nodes, Nat.mul_add]; omega
theorem weight_iface (d : TId) (v : Val) : weight c k (.iface d v) = weight c k v + k := by simp only [weight, Val.chars, Val.nodes, Nat.mul_add]; omega
theorem weight_str (s : Bytes) : weight c k (.str s) = c * s.length + k := by simp only [weight, Val.chars, Val.nodes]; omega

theorem nodes_pos (v : Val) : 1 ≤ v.nodes := by cases v <;> simp [Val.nodes]

theorem weight_ge (v : Val) : k ≤ weight c k v := by
  have := Nat.mul_le_mul_left k (nodes_pos v)
  simp only [weight]
  omega

theorem weight_bytes (x : Bytes) : ((x.map fun c => Val.int (.uint8 c)).map (weight c k)).sum = k * x.length := by
  induction x with
  | nil => rfl
  | cons a x ih =>
    simp only [List.map_cons, List.sum_cons] at *
    rw [ih]
    simp only [weight, Val.chars, Val.nodes, List.length_cons, Nat.mul_add]
    omega

/-! ## Fields -/

/-- No path leads through the field of another. -/
def Apart (ps : List (List Nat × Val)) : Prop := ps.Pairwise fun a b => ¬ a.1 <+: b.1 ∧ ¬ b.1 <+: a.1

/-- Fields that are apart weigh no more than the value. -/
theorem fields_weight (v : Val) (ps : List (List Nat × Val)) (hf : ∀ p ∈ ps, FieldAt v p.1 p.2) (ha : Apart ps) :
    (ps.map fun p => weight c k p.2).sum + k ≤ weight c k v := by
  match v with
  | .struct vs =>
    rw [weight_struct]
    have rows : ∀ (ws : List Val), (∀ w ∈ ws, w ∈ vs) → ∀ (ps : List (List Nat × Val)), (∀ p ∈ ps, FieldAt (.struct ws) p.1 p.2) → Apart ps →
        (ps.map fun p => weight c k p.2).sum ≤ (ws.map (weight c k)).sum := by
      intro ws
      induction ws with
      | nil =>
        intro _ ps hf _
        cases ps with
        | nil => simp
        | cons p ps =>
          have := hf p List.mem_cons_self
          generalize p.1 = path at this
          generalize p.2 = x at this
          cases this <;> simp_all
      | cons w ws ih =>
        intro hsub ps hf ha
        rw [← sum_filter _ (fun p => p.1.head? == some 0) ps, List.map_cons, List.sum_cons]
        refine Nat.add_le_add ?_ ?_
        · -- the fields in the first one
          have ha0 : Apart (ps.filter fun p => p.1.head? == some 0) := List.Pairwise.filter _ ha
          have hf0 : ∀ p ∈ ps.filter fun p => p.1.head? == some 0, FieldAt (.struct (w :: ws)) p.1 p.2 ∧ p.1.head? = some 0 := by
            intro p hp
            rw [List.mem_filter] at hp
            exact ⟨hf p hp.1, by simpa using hp.2⟩
          generalize ps.filter (fun p => p.1.head? == some 0) = qs at *
          cases qs with
          | nil => simp
          | cons a l =>
            have hl := List.pairwise_cons.mp ha0
            obtain ⟨ha1, ha2⟩ := hf0 a List.mem_cons_self
            obtain ⟨path, x⟩ := a
            simp only at ha1 ha2 hl
            cases path with
            | nil => cases ha1
            | cons i is =>
              simp only [List.head?_cons, Option.some.injEq] at ha2
              subst ha2
              cases is with
              | nil =>
                have : l = [] := by
                  cases l with
                  | nil => rfl
                  | cons b l =>
                    obtain ⟨-, hb⟩ := hf0 b (by simp)
                    obtain ⟨t, ht⟩ : ∃ t, b.1 = 0 :: t := by
                      cases hbp : b.1 with
                      | nil => rw [hbp] at hb; cases hb
                      | cons j t => rw [hbp] at hb; simp only [List.head?_cons, Option.some.injEq] at hb; exact ⟨t, by rw [hb]⟩
                    exact absurd (by rw [ht]; exact ⟨t, rfl⟩) (hl.1 b List.mem_cons_self).1
                subst this
                cases ha1 with
                | last h => simp only [List.getElem?_cons_zero, Option.some.injEq] at h; subst h; simp
              | cons j is =>
                have hall : ∀ b ∈ ((0 :: j :: is, x) :: l), ∃ j' is', b.1 = 0 :: j' :: is' := by
                  intro b hb
                  obtain ⟨-, hb0⟩ := hf0 b hb
                  rcases List.mem_cons.mp hb with rfl | hb'
                  · exact ⟨_, _, rfl⟩
                  · cases hbp : b.1 with
                    | nil => rw [hbp] at hb0; cases hb0
                    | cons j' t =>
                      rw [hbp] at hb0
                      simp only [List.head?_cons, Option.some.injEq] at hb0
                      subst hb0
                      cases t with
                      | nil => exact absurd (by rw [hbp]; exact ⟨j :: is, rfl⟩) (hl.1 b hb').2
                      | cons j'' t => exact ⟨_, _, rfl⟩
                generalize hqs : (0 :: j :: is, x) :: l = qs at *
                have hpw : Apart (qs.map fun p => (p.1.tail, p.2)) := by
                  refine List.pairwise_map.mpr (List.Pairwise.imp_of_mem ?_ ha0)
                  intro a b hma hmb ⟨h1, h2⟩
                  obtain ⟨_, _, ea⟩ := hall a hma
                  obtain ⟨_, _, eb⟩ := hall b hmb
                  rw [ea, eb] at h1 h2
                  simp only [ea, eb, List.tail_cons]
                  exact ⟨fun h => h1 (List.cons_prefix_cons.mpr ⟨rfl, h⟩), fun h => h2 (List.cons_prefix_cons.mpr ⟨rfl, h⟩)⟩
                have hsum : (qs.map fun p => weight c k p.2).sum = ((qs.map fun p => (p.1.tail, p.2)).map fun p => weight c k p.2).sum := by
                  rw [List.map_map]; rfl
                rw [hsum]
                have hmem := List.sizeOf_lt_of_mem (hsub w List.mem_cons_self)
                cases ha1 with
                | embed h _ =>
                  simp only [List.getElem?_cons_zero, Option.some.injEq] at h
                  subst h
                  refine Nat.le_trans (Nat.le_add_right _ _) (fields_weight _ (qs.map fun p => (p.1.tail, p.2)) ?_ hpw)
                  intro p hp
                  obtain ⟨p', hp', rfl⟩ := List.mem_map.mp hp
                  obtain ⟨j', is', e⟩ := hall p' hp'
                  have hfa := (hf0 p' hp').1
                  rw [e] at hfa
                  simp only [e, List.tail_cons]
                  cases hfa with
                  | embed h h' => simp only [List.getElem?_cons_zero, Option.some.injEq] at h; cases h; exact h'
                  | deref h => simp at h
                | deref h _ =>
                  simp only [List.getElem?_cons_zero, Option.some.injEq] at h
                  subst h
                  rename_i y _
                  rw [weight_ptr]
                  refine Nat.le_trans ?_ (Nat.le_add_right _ _)
                  refine Nat.le_trans (Nat.le_add_right _ _) (fields_weight y (qs.map fun p => (p.1.tail, p.2)) ?_ hpw)
                  intro p hp
                  obtain ⟨p', hp', rfl⟩ := List.mem_map.mp hp
                  obtain ⟨j', is', e⟩ := hall p' hp'
                  have hfa := (hf0 p' hp').1
                  rw [e] at hfa
                  simp only [e, List.tail_cons]
                  cases hfa with
                  | embed h h' => simp at h
                  | deref h h' => simp only [List.getElem?_cons_zero, Option.some.injEq] at h; cases h; exact h'
        · -- the fields in the others
          have ha1 : Apart (ps.filter fun p => !(p.1.head? == some 0)) := List.Pairwise.filter _ ha
          have hf1 : ∀ p ∈ ps.filter fun p => !(p.1.head? == some 0), ∃ i is, p.1 = (i + 1) :: is ∧ FieldAt (.struct ws) (i :: is) p.2 := by
            intro p hp
            rw [List.mem_filter] at hp
            have h1 := hf p hp.1
            have h2 := hp.2
            obtain ⟨path, x⟩ := p
            simp only at h1 h2
            cases path with
            | nil => cases h1
            | cons i is =>
              cases i with
              | zero => simp at h2
              | succ i =>
                refine ⟨i, is, rfl, ?_⟩
                cases h1 with
                | last h => exact .last (by simpa using h)
                | embed h h' => exact .embed (by simpa using h) h'
                | deref h h' => exact .deref (by simpa using h) h'
          generalize ps.filter (fun p => !(p.1.head? == some 0)) = qs at *
          have hsum : (qs.map fun p => weight c k p.2).sum =
              ((qs.map fun p => ((p.1.headD 0 - 1) :: p.1.tail, p.2)).map fun p => weight c k p.2).sum := by
            rw [List.map_map]; rfl
          rw [hsum]
          refine ih (fun w hw => hsub w (List.mem_cons_of_mem _ hw)) _ ?_ ?_
          · intro p hp
            obtain ⟨p', hp', rfl⟩ := List.mem_map.mp hp
            obtain ⟨i, is, e, h⟩ := hf1 p' hp'
            simpa [e] using h
          · refine List.pairwise_map.mpr (List.Pairwise.imp_of_mem ?_ ha1)
            intro a b hma hmb ⟨h1, h2⟩
            obtain ⟨i, _, ea, -⟩ := hf1 a hma
            obtain ⟨i', _, eb, -⟩ := hf1 b hmb
            rw [ea, eb] at h1 h2
            simp only [ea, eb, List.tail_cons, List.headD_cons, Nat.add_sub_cancel]
            refine ⟨fun h => h1 ?_, fun h => h2 ?_⟩ <;>
            · rw [List.cons_prefix_cons] at h ⊢
              exact ⟨by rw [h.1], h.2⟩
    exact Nat.add_le_add_right (rows vs (fun _ h => h) ps hf ha) k
  | .bool _ | .int _ | .float _ _ | .str _ | .time _ | .nil | .ptr _ | .slice _ | .array _ | .map _ | .iface _ _ | .smap _ | .opaque =>
    cases ps with
    | nil => simpa using weight_ge _
    | cons p ps => exact absurd (hf p List.mem_cons_self) (by intro h; cases h)
termination_by sizeOf v
decreasing_by
  all_goals simp_wf
  all_goals subst_vars
  all_goals simp at *
  all_goals omega

/-! ## Members are apart -/

variable {E : Env} {U : UnicodeTab} {t : TId}

theorem reaches_prefix {letter digit : Nat → Bool} {p : List Nat} {u : TId} {q : List (Nat × Bool)} (h : Reaches letter digit E t p u q) :
    ∀ {a : List Nat} {i : Nat} {s : List Nat}, p = a ++ i :: s →
      ∃ w q' fs sf x ptr, Reaches letter digit E t a w q' ∧ HasFields E w fs ∧ fs[i]? = some sf ∧ Promotes letter digit E sf x ptr := by
  induction h with
  | here => intro a i s h; simp at h
  | @step p u q fs j sf v ptr h1 h2 h3 h4 ih =>
    intro a i s h
    rcases List.eq_nil_or_concat s with rfl | ⟨s', b, rfl⟩
    · have := List.append_inj' h (by simp)
      simp only [List.cons.injEq, and_true] at this
      obtain ⟨rfl, rfl⟩ := this
      exact ⟨_, _, _, _, _, _, h1, h2, h3, h4⟩
    · have h' : p ++ [j] = (a ++ i :: s') ++ [b] := by rw [h]; simp
      have := List.append_inj' h' rfl
      exact ih this.1

theorem members_apart (hU : TablesOk U.isLetter U.isDigit) {m m' : MField} (h : ChosenField U.isLetter U.isDigit E t m)
    (h' : ChosenField U.isLetter U.isDigit E t m') (hp : m.path <+: m'.path) : m.path = m'.path := by
  obtain ⟨p, u, i, r, tg, e, hprom, -⟩ := h
  obtain ⟨p', u', i', r', tg', e', hprom', -⟩ := h'
  obtain ⟨s, hs⟩ := hp
  rcases List.eq_nil_or_concat s with rfl | ⟨s', b, rfl⟩
  · simpa using hs
  · exfalso
    obtain ⟨p1, q1, hr, e1, -⟩ := hprom.reach
    obtain ⟨p2, q2, hr2, e2, -⟩ := hprom'.reach
    rw [e1, e2] at hs
    have hs' : (p1 ++ i :: s') ++ [b] = p2 ++ [i'] := by rw [← hs]; simp
    have hp2 := (List.append_inj' hs' rfl).1
    obtain ⟨w, q', fs, sf, x, ptr, h1, h2, h3, h4⟩ := reaches_prefix hr2 hp2.symm
    obtain ⟨rfl, -⟩ := reaches_functional hU hr h1 rfl
    obtain ⟨fs', h5, h6⟩ := hprom.decl
    rw [HasFields] at h2 h5
    rw [h2] at h5
    cases h5
    rw [h3] at h6
    cases h6
    exact hprom.member.2.1 _ _ h4

end Jettison.Proofs
