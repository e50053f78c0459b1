import Verif.Props.Check

/-!
# Types on which the code misreads memory (findings 11, 12 and 13)

Each theorem shows a universe of Go types, a memory holding a value, and a call that
goes wrong: what `Repr` asks for beyond `Holds` cannot be dropped from C36. In a universe without such types
it asks for nothing more (`C36_holds`).
-/

namespace Jettison.Props
open Jettison Jettison.Spec Jettison.Model Jettison.Proofs

/-- 0: int; 2: `[1]*int`; 4: `interface{ M() }`; 6: `struct { I interface{ M() }; N int }`;
8: `type Set map[string]int` with `MarshalText` on `Set`; 10: string; 12: `type F func()` with
`MarshalText` on `F`; 14: `struct { F F; N int }`; 16: chan int; 18: `[1]chan int`. Odd: pointers. -/
def trapE : Env := fun t =>
  if t % 2 = 1 then { kind := .ptr (t / 2), size := 8 }
  else match t with
    | 2 => { kind := .array 1 1, size := 8 }
    | 4 => { kind := .iface 1, size := 16 }
    | 6 => { kind := .struct [fld (b! "I") 4 0, fld (b! "N") 0 16], name := b! "S", size := 24 }
    | 8 => { kind := .map 10 0, name := b! "Set", meths := { text := true }, pmeths := { text := true }, size := 8 }
    | 10 => { kind := .string, name := b! "string", size := 16 }
    | 12 => { kind := .other, word := true, name := b! "F", meths := { text := true }, pmeths := { text := true }, size := 8 }
    | 14 => { kind := .struct [fld (b! "F") 12 0, fld (b! "N") 0 8], name := b! "G", size := 16 }
    | 16 => { kind := .other, word := true, size := 8 }
    | 18 => { kind := .array 1 16, size := 8 }
    | _ => { kind := .int .int, name := b! "int", size := 8 }

def trapW : World := { sampleW with E := trapE }

theorem trap_even {P : TypeDef → Prop} (t : TId) (h : ∀ e, P { kind := .ptr e, size := 8 }) (h2 : P (trapE 2)) (h4 : P (trapE 4)) (h6 : P (trapE 6))
    (h8 : P (trapE 8)) (h10 : P (trapE 10)) (h12 : P (trapE 12)) (h14 : P (trapE 14)) (h16 : P (trapE 16)) (h18 : P (trapE 18)) (h0 : P (trapE 0)) : P (trapE t) := by
  unfold trapE
  split
  · exact h _
  · split <;> first | exact h2 | exact h4 | exact h6 | exact h8 | exact h10 | exact h12 | exact h14 | exact h16 | exact h18 | exact h0

theorem trap_types : GoTypes trapW.E trapW.ptrTo := by
  have hs : ∀ t, (trapE t).special = none := fun t =>
    trap_even (P := fun d => d.special = none) t (fun _ => rfl) rfl rfl rfl rfl rfl rfl rfl rfl rfl rfl
  refine ⟨?_, ?_, ?_, ?_, ?_, ?_, ?_⟩
  · intro t
    have h1 : (2 * t + 1) % 2 = 1 := Nat.mul_add_mod ..
    have h2 : (2 * t + 1) / 2 = t := by rw [Nat.mul_add_div (by decide)]; rfl
    show (trapE (2 * t + 1)).kind = _
    simp only [trapE, if_pos h1, h2]
  · intro t h; rw [show trapW.E t = trapE t from rfl, hs] at h; simp at h
  · intro t h; rw [show trapW.E t = trapE t from rfl, hs] at h; simp at h
  · intro t h; rw [show trapW.E t = trapE t from rfl, hs] at h; simp at h
  · intro t h; rw [show trapW.E t = trapE t from rfl, hs] at h; simp at h
  · intro t h; rw [show trapW.E t = trapE t from rfl, hs] at h; simp at h
  · exact fun t => trap_even (P := fun d => d.kind = .int .uint8 → d.size = 1) t (by simp) (by simp [trapE]) (by simp [trapE])
      (by simp [trapE]) (by simp [trapE]) (by simp [trapE]) (by simp [trapE]) (by simp [trapE]) (by simp [trapE]) (by simp [trapE]) (by simp [trapE])

/-- Finding 11: an array of one pointer is held directly in an interface, but
`isInlined` does not know it: the pointee is read as if it were the array. -/
theorem C36_array1_wrong : GoTypes trapW.E trapW.ptrTo ∧ ∃ H x v, HoldsE trapW.E H.mem x v ∧ ∀ n, 2 ≤ n → marshal trapW H n x = .bad := by
  refine ⟨trap_types, sampleHeap [(500, .int (.int 5))], some (2, 500), .iface 2 (.array [.ptr (.int (.int 5))]), ?_, ?_⟩
  · refine .direct (.array (e := 1) rfl (.ptr rfl)) (.array rfl ?_)
    intro i v hi
    cases i with
    | zero =>
      simp only [List.getElem?_cons_zero, Option.some.injEq] at hi
      subst hi
      refine .ptr (e := 0) rfl (a := 500) (by simp [Loc.add, Mem.at]) (by decide) (.int rfl (by decide +kernel))
    | succ i => simp at hi
  · intro n hn
    have h : marshal trapW (sampleHeap [(500, .int (.int 5))]) 2 (some (2, 500)) = .bad := by decide +kernel
    obtain ⟨n, rfl⟩ : ∃ k, n = k + 2 := ⟨n - 2, by omega⟩
    rfl

/-- Finding 13: a field of an interface type with methods, none of them one of the four,
is read as an empty interface: the pointer to its method table is taken for a type. -/
theorem C36_iface_wrong : GoTypes trapW.E trapW.ptrTo ∧ ∃ H x v, HoldsE trapW.E H.mem x v ∧ marshal trapW H 9 x = .bad := by
  refine ⟨trap_types, sampleHeap [(100, .iface (some (0, 500))), (116, .int (.int 3)), (500, .int (.int 5))], some (6, 100),
    .iface 6 (.struct [.iface 0 (.int (.int 5)), .int (.int 3)]), ?_, by decide +kernel⟩
  refine .indirect (by intro h; cases h <;> simp_all [trapW, trapE]) (by decide) (.struct rfl rfl rfl ?_)
  intro i f v hf hv
  match i with
  | 0 =>
    simp only [List.getElem?_cons_zero, Option.some.injEq] at hf hv
    subst hf; subst hv
    refine .iface (n := 0) rfl (x := some (0, 500)) (by decide +kernel) (.indirect ?_ (by decide) (.int rfl (by decide +kernel)))
    intro h; cases h <;> simp_all [trapW, trapE]
  | 1 =>
    simp only [List.getElem?_cons_succ, List.getElem?_cons_zero, Option.some.injEq] at hf hv
    subst hf; subst hv
    exact .int rfl (by decide +kernel)
  | i + 2 => simp at hf

/-- A map at 100, and a method that returns `set` when it is called on that map. -/
def trapH : Heap where
  mem := (sampleHeap [(100, .hmap []), (600, .word 100)]).mem
  meth _ _ _ _ w _ := match w with
    | .heap a => .ok (if a = 100 then b! "set" else b! "garbage")
    | .tmp _ => .ok (b! "garbage")

/-- Finding 12: a method with a value receiver on a map type is called with the address
of the local copy of the map word in place of the word. Here every call on the right
receiver returns `set`, yet the output shows another receiver. -/
theorem C36_recv_wrong : GoTypes trapW.E trapW.ptrTo ∧ HoldsE trapW.E trapH.mem (some (8, 100)) (.iface 8 (.map [])) ∧
    (∀ path m ctx w dst, Holds trapW.E trapH.mem 8 (.tmp w) (.map []) → trapH.meth path m ctx 8 (.heap w) dst = .ok (b! "set")) ∧
    marshal trapW trapH 9 (some (8, 100)) = .ret (some (b! "\"garbage\"")) none := by
  refine ⟨trap_types, ?_, ?_, by decide +kernel⟩
  · exact .direct (.map (k := 10) (e := 0) rfl) (.map (k := 10) (e := 0) rfl (a := 100) (es := []) rfl (by decide) (by decide +kernel) rfl (by simp) (by simp))
  · intro path m ctx w dst h
    cases h with
    | @map _ _ _ _ _ es _ _ hat ha hm =>
      simp only [Mem.at, Option.some.injEq, Cell.word.injEq] at hat
      subst hat
      have hm' : (sampleHeap [(100, Cell.hmap []), (600, Cell.word 100)]).mem w = some (.hmap es) := by
        simpa [trapH, Mem.at, ha] using hm
      simp only [sampleHeap, List.find?_cons, List.find?_nil] at hm'
      by_cases h1 : w = 100
      · subst h1; rfl
      · by_cases h2 : w = 600
        · subst h2; simp at hm'
        · have e1 : decide (100 = w) = false := by simp; exact fun h => h1 h.symm
          have e2 : decide (600 = w) = false := by simp; exact fun h => h2 h.symm
          simp [e1, e2] at hm'
    | eface hk | iface hk => simp [trapW, trapE] at hk

/-- A struct at 100 whose first field is a function, which is at 700, and a method that returns `f` when it
is called on that function. -/
def funcH : Heap where
  mem := (sampleHeap [(100, .word 700), (108, .int (.int 3))]).mem
  meth _ _ _ _ w _ := match w with
    | .heap a => .ok (if a = 700 then b! "f" else b! "garbage")
    | .tmp _ => .ok (b! "garbage")

/-- Finding 12, for a function: a method with a value receiver on a function type is called with the address
of the field in place of the function it holds. -/
theorem C36_func_wrong : GoTypes trapW.E trapW.ptrTo ∧
    HoldsE trapW.E funcH.mem (some (14, 100)) (.iface 14 (.struct [.opaque, .int (.int 3)])) ∧
    Direct trapW.E 12 ∧ funcH.mem.at (.heap 100) = some (.word 700) ∧
    (∀ path m ctx dst, funcH.meth path m ctx 12 (.heap 700) dst = .ok (b! "f")) ∧
    marshal trapW funcH 9 (some (12, 700)) = .ret (some (b! "\"f\"")) none ∧
    marshal trapW funcH 9 (some (14, 100)) = .ret (some (b! "{\"F\":\"garbage\",\"N\":3}")) none := by
  refine ⟨trap_types, .indirect (by intro h; cases h <;> simp_all [trapW, trapE]) (by decide) (.struct rfl rfl rfl ?_), .word rfl rfl, by decide +kernel,
    fun _ _ _ _ => rfl, by decide +kernel, by decide +kernel⟩
  intro i f v hf hv
  match i with
  | 0 =>
    simp only [List.getElem?_cons_zero, Option.some.injEq] at hf hv
    subst hf; subst hv
    exact .opaque rfl
  | 1 =>
    simp only [List.getElem?_cons_succ, List.getElem?_cons_zero, Option.some.injEq] at hf hv
    subst hf; subst hv
    exact .int rfl (by decide +kernel)
  | i + 2 => simp at hf

/-! ## Without the traps -/

theorem notrap_bare {E : Env} (N : NoTrap E) {t : TId} (h : ∀ e, (E t).kind ≠ .ptr e) : Bare E t := fun hm hd => by
  obtain ⟨e, he⟩ := N.recv t hm hd
  exact h e he

theorem notrap_direct {E : Env} (N : NoTrap E) (S : ∀ t, (E t).special ≠ none → ¬ Direct E t) {t : TId} (h : Direct E t) : Inlined E t ∨ Blank E t := by
  induction h with
  | ptr hk => exact .inl (.ptr hk)
  | map hk => exact .inl (.map hk)
  | word hk hw => exact .inr (.word hk hw)
  | @struct t f hk hd ih =>
    rcases ih with h | h
    · exact .inl (.struct hk h)
    · refine .inr (.struct hk ?_ h)
      cases hs : (E t).special with
      | none => rfl
      | some s => exact absurd (.struct hk hd) (S t (by simp [hs]))
  | array hk hd _ => exact .inr (.array hk (N.array1 _ _ hk hd))

/-- Where no type is one of those of findings 11 to 13, every value the memory holds can be read. -/
theorem C36_holds {E : Env} {pt : TId → TId} (G : GoTypes E pt) (N : NoTrap E) (S : ∀ t, (E t).special ≠ none → ¬ Direct E t) {m : Mem} {x : Eface} {v : Val}
    (h : HoldsE E m x v) : ReprE E m x v :=
  HoldsE.rec (motive_1 := fun t p v _ => Repr E m t p v) (motive_2 := fun x v _ => ReprE E m x v)
    .bool .int .float .str .time
    (fun h hat hl _ _ ik iv => .smap h hat hl ik iv)
    .nilPtr (fun h hat ha _ ih => .ptr h hat ha ih)
    (fun h hat => .nilMap h (notrap_bare N (by simp [h])) hat)
    (fun h hat ha hm hl _ _ ik iv => .map h (notrap_bare N (by simp [h])) hat ha hm hl ik iv)
    .nilSlice (fun h hat hd _ ih => .slice h hat hd ih)
    (fun h _ ih => .array h (notrap_bare N (by simp [h])) ih)
    (fun h hs hl _ ih => .struct h hs (notrap_bare N (by simp [h])) hl ih)
    (fun h hat _ ih => .eface h hat ih)
    (fun h hat _ ih => .iface h hat (fun _ => N.iface _ _ h) ih)
    (fun h => .opaque h (notrap_bare N (by simp [h])))
    .nil
    (fun hd _ ih => (notrap_direct N S hd).elim (fun h => .direct h ih) (fun h => .indirect (.inr h) (blank_repr G h ih _)))
    (fun hd hw _ ih => .indirect (.inl ⟨hd, hw⟩) ih) h

theorem blank_holds {E : Env} {pt : TId → TId} (G : GoTypes E pt) {m : Mem} {t : TId} (h : Blank E t) : ∀ {p v}, Holds E m t p v → ∀ q, Holds E m t q v := by
  induction h with
  | word hk hw =>
    intro p v hr q
    cases hr with
    | «opaque» h => exact .opaque h
    | time hs _ => obtain ⟨_, h, _⟩ := G.time _ hs; simp [hk] at h
    | smap hs => obtain ⟨_, h, _⟩ := G.syncMap _ hs; simp [hk] at h
    | _ => simp_all
  | @struct t f hk hs _ ih =>
    intro p v hr q
    cases hr with
    | struct h hs hl hf =>
      refine .struct h hs hl fun i g v hg hv => ?_
      have hg' := hg
      rw [hk] at h
      cases h
      have : g = f := by cases i with
        | zero => simpa using hg'.symm
        | succ i => simp at hg'
      subst this
      exact ih (hf i _ v hg hv) _
    | time h _ => rw [hs] at h; cases h
    | smap h => rw [hs] at h; cases h
    | _ => simp_all
  | @array t e hk _ ih =>
    intro p v hr q
    cases hr with
    | array h hf =>
      rw [hk] at h
      have he : e = _ := (Kind.array.inj h).2
      subst he
      exact .array (by rw [hk]; exact h) fun i v hv => ih (hf i v hv) _
    | time hs _ => obtain ⟨_, h, _⟩ := G.time _ hs; simp [hk] at h
    | smap hs => obtain ⟨_, h, _⟩ := G.syncMap _ hs; simp [hk] at h
    | _ => simp_all

/-- What can be read is what the memory holds. -/
theorem C36_held {E : Env} {pt : TId → TId} (G : GoTypes E pt) {m : Mem} {x : Eface} {v : Val} (h : ReprE E m x v) : HoldsE E m x v :=
  ReprE.rec (motive_1 := fun t p v _ => Holds E m t p v) (motive_2 := fun x v _ => HoldsE E m x v)
    .bool .int .float .str .time
    (fun h hat hl _ _ ik iv => .smap h hat hl ik iv)
    .nilPtr (fun h hat ha _ ih => .ptr h hat ha ih)
    (fun h _ hat => .nilMap h hat)
    (fun h _ hat ha hm hl _ _ ik iv => .map h hat ha hm hl ik iv)
    .nilSlice (fun h hat hd _ ih => .slice h hat hd ih)
    (fun h _ _ ih => .array h ih)
    (fun h hs _ hl _ ih => .struct h hs hl ih)
    (fun h hat _ ih => .eface h hat ih)
    (fun h hat _ _ ih => .iface h hat ih)
    (fun h _ => .opaque h)
    .nil
    (fun hd _ ih => .direct (inlined_direct hd) ih)
    (fun hp _ ih => hp.elim (fun h => .indirect h.1 h.2 ih) (fun h => .direct (blank_direct h) (blank_holds G h ih _))) h

end Jettison.Props
